import Verif.Mark.Reseq
import Verif.Convert.LookRun

/-!
# C109 at the player: what the EBU-TT-D documents made from a sequence show, with marks
-/
namespace Verif.Mark

open Verif.Doc (Node Att Kind Lab Win Item bind_ok items Leaf leaves leavesL Visible times SegBody)
open Verif.SegHead (mapN mapNL)
open Verif.Convert (Media CErr on pathLeaves pathLeavesL SegReady)

/-! ### Specification -/

mutual
/-- The content of the paragraphs and spans (without spans inside) of a tree, in document order: the elements around
it, the content, and what holds there. -/
def pieces (c : Around) : Node (Att × Marks) → List (List Att × List Item × Around)
  | .elem x kids =>
    if Leaf Att.kind x.1 (forgetL kids) then
      (if Visible (items (forgetL kids)) then [([x.1], items (forgetL kids), c.enter x.2)] else [])
    else (piecesL (c.enter x.2) kids).map (fun l => (x.1 :: l.1, l.2))
  | _ => []
def piecesL (c : Around) : List (Node (Att × Marks)) → List (List Att × List Item × Around)
  | [] => []
  | k :: ks => pieces c k ++ piecesL c ks
end

/-- What an EBU-TT-D document shows at a media time, by the times written in it: pieces of content, each with what holds
there. -/
def DDoc.playedAt (d : DDoc) (u : Int) : List (List Item × Around) :=
  match d.body with
  | none => []
  | some b => ((pieces (outer d.lang d.space) b).filter (fun l => on u l.1)).map (·.2)

/-- `EBUTTDEncoder.process_document` (node/encoder.py:35-48) on what a sequence returns.  `none`: the empty document that is
returned when there is nothing to extract (documents/ebutt3.py:995-997); the converted one has no body, and its language
is left out. -/
def encode (m : Media) (o : Option Part) : Except CErr DDoc :=
  o.elim (.ok { lang := none, space := none, body := none }) (fun p => convert m p.doc)

/-! ### Pieces -/

mutual
theorem pieces_path : ∀ (n : Node (Att × Marks)) (c : Around), (pieces c n).map (fun l => (l.1, l.2.1)) = pathLeaves (forget n)
  | .text s, c => rfl
  | .br, c => rfl
  | .elem x kids, c => by
    have ih := piecesL_path kids (c.enter x.2)
    rw [pieces]
    show _ = pathLeaves (.elem x.1 (forgetL kids))
    rw [pathLeaves]
    split
    · split <;> rfl
    · rw [← ih, List.map_map, List.map_map]; rfl
theorem piecesL_path : ∀ (ns : List (Node (Att × Marks))) (c : Around), (piecesL c ns).map (fun l => (l.1, l.2.1)) = pathLeavesL (forgetL ns)
  | [], c => rfl
  | k :: ks, c => by
    show _ = pathLeavesL (forget k :: forgetL ks)
    rw [piecesL, List.map_append, pieces_path k c, piecesL_path ks c, pathLeavesL]
end

mutual
theorem pieces_around : ∀ (n : Node (Att × Marks)) (c : Around), (pieces c n).map (·.2.2) = leafArounds Att.kind c n
  | .text s, c => rfl
  | .br, c => rfl
  | .elem x kids, c => by
    rw [leafArounds_elem, pieces]
    split
    · split <;> rfl
    · rw [← piecesL_around kids (c.enter x.2), List.map_map]; rfl
theorem piecesL_around : ∀ (ns : List (Node (Att × Marks))) (c : Around), (piecesL c ns).map (·.2.2) = leafAroundsL Att.kind c ns
  | [], c => rfl
  | k :: ks, c => by
    rw [piecesL, List.map_append, pieces_around k c, piecesL_around ks c, leafAroundsL_cons]
end

mutual
/-- Conversion keeps what holds in the leaves. -/
theorem conv_arounds {m : Media} : ∀ (n n' : Node (Att × Marks)) (c : Around), conv m n = .ok n' → Marked Att.kind n →
    NoDivRole Att.kind n → leafArounds Att.kind c n' = leafArounds Att.kind c n
  | .text s, n', c, h, _, _ => by simp only [conv, Except.ok.injEq] at h; subst h; rfl
  | .br, n', c, h, _, _ => by simp only [conv, Except.ok.injEq] at h; subst h; rfl
  | .elem a kids, n', c, h, hm, hn => by
    rw [Marked] at hm
    rw [NoDivRole] at hn
    rw [conv] at h
    obtain ⟨ks, hks, h⟩ := bind_ok h
    obtain ⟨a', ha, h⟩ := bind_ok h
    split at h
    · simp only [pure, Except.pure, Except.ok.injEq] at h
      subst h
      have hf : Convert.convL m (forgetL kids) = .ok (forgetL ks) := by rw [forget_convL, hks]; rfl
      obtain ⟨h1, h2⟩ := Convert.conv_isSpan hf
      have hl : Leaf Att.kind a' (forgetL ks) = Leaf Att.kind a.1 (forgetL kids) := by
        simp only [Leaf, h1, (Convert.convAtt_ok ha).1]
      rw [leafArounds_elem, leafArounds_elem]
      simp only
      rw [hl, h2, enter_conv hm.1 hn.1, convL_arounds kids ks _ hks hm.2 hn.2]
    · simp [throw, throwThe, MonadExceptOf.throw] at h
theorem convL_arounds {m : Media} : ∀ (ns ns' : List (Node (Att × Marks))) (c : Around), convL m ns = .ok ns' → MarkedL Att.kind ns →
    NoDivRoleL Att.kind ns → leafAroundsL Att.kind c ns' = leafAroundsL Att.kind c ns
  | [], ns', c, h, _, _ => by simp only [convL, Except.ok.injEq] at h; subst h; rfl
  | k :: ks, ns', c, h, hm, hn => by
    rw [MarkedL] at hm
    rw [NoDivRoleL] at hn
    rw [convL] at h
    obtain ⟨k', hk, h⟩ := bind_ok h
    obtain ⟨ks', hks, h⟩ := bind_ok h
    simp only [pure, Except.pure, Except.ok.injEq] at h
    subst h
    rw [leafAroundsL_cons, leafAroundsL_cons, conv_arounds k k' c hk hm.1 hn.1, convL_arounds ks ks' c hks hm.2 hn.2]
end

theorem forall₂_and {α β γ : Type} {R : α → β → Prop} {f : α → γ} {g : β → γ} : ∀ {l : List α} {m : List β},
    List.Forall₂ R l m → l.map f = m.map g → List.Forall₂ (fun a b => R a b ∧ f a = g b) l m
  | _, _, .nil, _ => .nil
  | _, _, .cons h t, e => by
    simp only [List.map_cons, List.cons.injEq] at e
    exact .cons ⟨h, e.1⟩ (forall₂_and t e.2)

/-- A spliced document is converted, and then shows at every media time what it shows itself, with the same marks. -/
theorem ready_played {m : Media} (hrd : m.rd.Accurate) (hz0 : 0 ≤ m.zero) (hz : m.base = .clock → m.zero % 1000 = 0)
    {p : Part} (h : SegReady m (forget p.doc.body)) (hb : Bodied Att.kind p.doc.body) (hn : NoDivRole Att.kind p.doc.body) :
    ∃ o, convert m p.doc = .ok o ∧ ∀ u, 0 ≤ u → o.playedAt u = shownBy (some p) (u + m.shift) := by
  obtain ⟨hyes, hno⟩ := Convert.ready_shape h
  have hshift : 0 ≤ m.shift := by unfold Media.shift; cases m.base <;> simp <;> exact hz0
  obtain ⟨v, hv⟩ := validate_exists 0 p.doc
  obtain ⟨l1, s1, f1, m1⟩ := validate_ok hv
  by_cases hd : Convert.hasDiv (forget p.doc.body) = true
  · obtain ⟨g1, g2, g3, g4, g5, g6⟩ := hyes hd
    obtain ⟨out, hout⟩ := (Convert.C43_converts_iff m hrd _ hd).mp g6
    rw [Convert.convertBody, if_pos hd, forget_conv] at hout
    cases hcv : conv m p.doc.body with
    | error e => rw [hcv] at hout; simp [Except.map] at hout
    | ok n' =>
      refine ⟨{ lang := p.doc.lang, space := p.doc.space, body := some n' }, ?_, ?_⟩
      · unfold convert
        have hd' : Convert.hasDiv (mapN Prod.fst p.doc.body) = true := hd
        simp only [hd', if_true, hcv, Except.map]
        rfl
      intro u hu
      have hA := Convert.leaf_times_conv hrd hz0 hz (avail := 0) g1 g2 g3 g4 (fun _ => g5) (c := forget n') (out := forget n')
        (by rw [forget_conv, hcv]; rfl) rfl
      generalize hc : outer p.doc.lang p.doc.space = c
      have hL : Doc.leavesOf (times 0 0 none (forget p.doc.body)) =
          (leaves (fun x => lkind x.1) (around c v.body)).map (fun l => (l.1.1, l.2)) := by
        rw [Doc.leavesOf, ← f1, leaves_around lkind c]
      rw [hL, ← pieces_path n' c] at hA
      have hB : (leaves (fun x => lkind x.1) (around c v.body)).map (·.1.2) = (pieces c n').map (·.2.2) := by
        rw [pieces_around, conv_arounds _ _ c hcv hb.marked hn]
        have := mapN_around (fun x : Lab => x.att) v.body c
        rw [show mapN (fun x => (x.1.att, x.2)) v.body = p.doc.body from m1] at this
        unfold leafArounds
        rw [this, SegHead.leaves_mapN, List.map_map]
        rfl
      have hall := forall₂_and (SegHead.forall₂_unmap hA) hB
      unfold shownBy DDoc.playedAt
      simp only [hv]
      unfold MDoc.shownAt
      rw [l1, s1, hc]
      refine (Doc.filter_map_forall₂ hall ?_).symm
      rintro a ha b ⟨⟨h1, h2⟩, h3⟩
      refine ⟨?_, Prod.ext h1 h3⟩
      have := h2 (u + m.shift) (by omega) (by omega)
      rw [show u + m.shift - m.shift = u by omega] at this
      exact this
  · refine ⟨{ lang := p.doc.lang, space := p.doc.space, body := none }, ?_, ?_⟩
    · unfold convert
      have hd' : ¬ Convert.hasDiv (mapN Prod.fst p.doc.body) = true := hd
      simp only [hd']
      rfl
    intro u _
    unfold shownBy DDoc.playedAt
    simp only [hv]
    have := shown_forget v (u + m.shift)
    rw [f1] at this
    have h2 := h.body.shown (u + m.shift)
    rw [hno hd] at h2
    rw [h2] at this
    exact (List.map_eq_nil_iff.mp this).symm

/-! ### Extraction -/

mutual
theorem noDivRole_attOf : ∀ (n : Node (Lab × Marks)), NoDivRole Att.kind (mapN attOf n) → NoDivRole lkind n
  | .text s, _ => trivial
  | .br, _ => trivial
  | .elem x kids, h => by
    rw [mapN, NoDivRole] at h
    exact ⟨h.1, noDivRoleL_attOf kids h.2⟩
theorem noDivRoleL_attOf : ∀ (ns : List (Node (Lab × Marks))), NoDivRoleL Att.kind (mapNL attOf ns) → NoDivRoleL lkind ns
  | [], _ => trivial
  | k :: ks, h => by
    rw [mapNL, NoDivRoleL] at h
    exact ⟨noDivRole_attOf k h.1, noDivRoleL_attOf ks h.2⟩
end

theorem segmentOf_roles {h : Held} {d : Seq.Doc} {top : Int} {lang : Option (List Char)} {mk : Option (List Char) × Option (List Char)}
    (hg : h.Good d top lang mk) (hr : NoDivRole Att.kind h.root.body) {num : Nat} {w : Win} {p : Part} (hp : segmentOf h num w = some p) :
    Bodied Att.kind p.doc.body ∧ NoDivRole Att.kind p.doc.body := by
  obtain ⟨o, ho⟩ := validate_exists h.src.avail h.root
  obtain ⟨_, _, f1, m1⟩ := validate_ok ho
  obtain ⟨b1, _⟩ := validated_body ho hg.marked
  obtain ⟨x, kids, hx, hk, _, _, her⟩ := Doc.good_body hg.src.toSound
  have hfx : forget o.body = .elem x kids := by rw [f1, ← hg.root]; exact hx
  have hsh : Doc.shaped (Doc.erase (forget o.body)) = true := by rw [hfx, her]; exact hg.src.shaped
  unfold segmentOf at hp
  rw [ho] at hp
  simp only at hp
  split at hp
  · cases hp
  · rename_i seg hseg
    injection hp with hp
    subst hp
    obtain ⟨g1, _, _, _, g5⟩ := segment_bodied hseg (bodied_of_shaped hfx hk b1 hsh) hsh
    exact ⟨g1, g5 (noDivRole_attOf _ (by rw [m1]; exact hr))⟩

theorem splice_roles {ps : List Part} (h : ∀ p ∈ ps, Bodied Att.kind p.doc.body ∧ NoDivRole Att.kind p.doc.body) {o : Part}
    (ho : splice ps = some o) : Bodied Att.kind o.doc.body ∧ NoDivRole Att.kind o.doc.body := by
  cases ps with
  | nil => simp [splice] at ho
  | cons q qs =>
    simp only [splice, Option.some.injEq] at ho
    obtain ⟨g1, _, _, _, _, g6⟩ := merge_said (fun r hr => (h r (List.mem_cons_of_mem _ hr)).1) ([], q) (h q List.mem_cons_self).1
    rw [← ho]
    exact ⟨g1, g6 (h q List.mem_cons_self).2 (fun r hr => (h r (List.mem_cons_of_mem _ hr)).2)⟩

theorem filterMap_map {α β γ : Type} (f : α → Option β) (g : β → γ) : ∀ l : List α,
    l.filterMap (fun a => (f a).map g) = (l.filterMap f).map g
  | [] => rfl
  | a :: l => by
    rw [List.filterMap_cons, List.filterMap_cons, filterMap_map f g l]
    cases f a <;> rfl

theorem extract_forget {s : Seq.State} {src : Seq.Doc → Held} {lo hi : Option Int} {ws : List (Seq.Doc × Option Int × Option Int)}
    (hws : Seq.extractWindows s lo hi = some ws) (hr : ∀ w ∈ ws, (src w.1).src.root = forget (src w.1).root.body) :
    Doc.extractSegment s (fun d => (src d).src) lo hi = (extractSegment s src lo hi).map (fun o => o.map Part.forget) := by
  unfold Doc.extractSegment extractSegment
  rw [hws]
  simp only [Option.map_some, Option.some.injEq]
  rw [← forget_splice, ← filterMap_map]
  congr 1
  apply List.filterMap_congr
  intro w hw
  exact segmentOf_forget (hr w hw) _ _

/-- **C109**  For every reachable sequence and every window: the document extracted for the window is converted, and the EBU-TT-D
document shows, at every media time that corresponds to an instant of the window, exactly what the document active at that
instant shows, each piece with the same language, white space handling, agents and roles; nothing where none is active,
and nothing at other media times.  Assumes what `C86_played_is_active_partial` and `C109_resequenced_partial` do, and that no div has a
role (`C109_false_div_role`). -/
theorem C109_played_is_active_partial {cfg : Seq.Cfg} {agid : Option String} {s : Seq.State} {log : List Seq.Doc}
    (h : Seq.Reach cfg agid s log) (src : Seq.Doc → Held) (lo hi : Option Int) (top : Int)
    (hlo : ∀ b, lo = some b → b % 1000 = 0) (hhi : ∀ e, hi = some e → e ≤ top ∧ e % 1000 = 0)
    (hlh : ∀ b e, lo = some b → hi = some e → b ≤ e)
    (hopen : hi = none → ∀ d ∈ s.docs, ∃ e, Seq.resolvedEnd s d = some (some e) ∧ e ≤ top)
    (lang : Option (List Char)) (mk : Option (List Char) × Option (List Char))
    (hg : ∀ d ∈ s.docs, (src d).Good d top lang mk) (hroles : ∀ d ∈ s.docs, NoDivRole Att.kind (src d).root.body)
    (hf : ∀ d ∈ s.docs, Convert.flat (forget (src d).root.body) = true)
    (m : Media) (hrd : m.rd.Accurate) (hz0 : 0 ≤ m.zero) (hms : m.base = .clock → m.zero % 1000 = 0)
    (hbase : ∀ d ∈ s.docs, (src d).src.base = m.base) (hz : m.base = .clock → ∃ b, lo = some b ∧ m.zero ≤ b) :
    ∃ out, (extractSegment s src lo hi).map (encode m) = some (.ok out) ∧
      ∀ u, 0 ≤ u →
        (Win.at ⟨lo, hi⟩ (u + m.shift) = true →
          (∀ a, Seq.ActiveAt s a (u + m.shift) → out.playedAt u = shownIn (src a) (u + m.shift)) ∧
          ((∀ a, ¬ Seq.ActiveAt s a (u + m.shift)) → out.playedAt u = [])) ∧
        (Win.at ⟨lo, hi⟩ (u + m.shift) = false → out.playedAt u = []) := by
  obtain ⟨o, ho, hshow⟩ := C109_resequenced_partial h src lo hi top hlo hhi hlh hopen lang mk hg
  have key : ∃ out, encode m o = .ok out ∧ ∀ u, 0 ≤ u → out.playedAt u = shownBy o (u + m.shift) := by
    cases o with
    | none => exact ⟨_, rfl, fun _ _ => rfl⟩
    | some p =>
      obtain ⟨ws, hws, _, hfst, _⟩ := Seq.C12_windows h lo hi hlh
      have hwd : ∀ w ∈ ws, w.1 ∈ s.docs := by
        intro w hw
        have : w.1 ∈ ws.map (·.1) := List.mem_map_of_mem hw
        rw [hfst, List.mem_filter] at this
        exact this.1
      have hfo := extract_forget (src := src) hws (fun w hw => (hg _ (hwd w hw)).root)
      rw [ho] at hfo
      have hready := Convert.extracted_ready h (fun d => (src d).src) lo hi top hlo hhi hlh hopen (fun d hd => (hg d hd).src)
        (fun d hd => by rw [(hg d hd).root]; exact hf d hd) m hbase hz hfo
      have hb : Bodied Att.kind p.doc.body ∧ NoDivRole Att.kind p.doc.body := by
        unfold extractSegment at ho
        rw [hws] at ho
        simp only [Option.map_some, Option.some.injEq] at ho
        refine splice_roles ?_ ho
        intro q hq
        obtain ⟨w, hw, hwq⟩ := List.mem_filterMap.mp hq
        exact segmentOf_roles (hg _ (hwd w hw)) (hroles _ (hwd w hw)) hwq
      exact ready_played hrd hz0 hms hready hb.1 hb.2
  obtain ⟨out, hout, hplay⟩ := key
  refine ⟨out, by rw [ho, Option.map_some, hout], ?_⟩
  intro u hu
  rw [hplay u hu]
  exact hshow (u + m.shift)

/-! ### The segments of a resequencer -/

open Verif.Node

/-- `extract_segment(begin, end, discard)` of a sequence (documents/ebutt3.py:956-1010) as `Node.extract`, with marks. -/
def extractMarked (src : Seq.Doc → Held) (discard : Bool) (q : Seq.State) (lo hi : Int) : Option (Option Part) × Seq.State :=
  match extractSegment q src (some lo) (some hi) with
  | none => (none, q)
  | some out =>
    if discard then
      match (Seq.lookupRange q.timeline (some lo) (some hi)).getLast? with
      | none => (some out, q)
      | some d =>
        match Seq.discardBefore q d with
        | none => (none, q)
        | some q' => (some out, q')
    else (some out, q)

/-- What the conversion of an emitted segment shows at a media time; nothing if it cannot be converted. -/
def playedSeg (m : Media) (g : RSeg (Option Part)) (u : Int) : List (List Item × Around) :=
  match encode m g.doc with
  | .ok o => o.playedAt u
  | .error _ => []

theorem extractMarked_discards (src : Seq.Doc → Held) (discard : Bool) : Convert.Discards (extractMarked src discard) := by
  intro q lo hi
  unfold extractMarked
  cases extractSegment q src (some lo) (some hi) with
  | none => exact .inl rfl
  | some out =>
    simp only
    cases discard with
    | false => exact .inl rfl
    | true =>
      simp only [if_true]
      cases hl : (Seq.lookupRange q.timeline (some lo) (some hi)).getLast? with
      | none => exact .inl rfl
      | some d =>
        simp only
        cases hd : Seq.discardBefore q d with
        | none => exact .inl rfl
        | some q' => exact .inr ⟨d, rfl, hd⟩

theorem extractMarked_emits {src : Seq.Doc → Held} {discard : Bool} {len : Int} {s : RState} {q : Seq.State}
    (hq : s.cons.seq = some (some q)) {seg : RSeg (Option Part)} (hseg : (reseq (extractMarked src discard) len s .tick).2 = some seg) :
    ∃ o, extractSegment q src (some s.lastEnd) (some (s.lastEnd + len)) = some o ∧
      seg = ⟨s.counter, s.lastEnd, s.lastEnd + len, o⟩ := by
  unfold reseq extractMarked at hseg
  rw [hq] at hseg
  simp only at hseg
  cases hx : extractSegment q src (some s.lastEnd) (some (s.lastEnd + len)) with
  | none => rw [hx] at hseg; simp at hseg
  | some o =>
    refine ⟨o, rfl, ?_⟩
    rw [hx] at hseg
    simp only at hseg
    cases discard with
    | false => simpa using hseg.symm
    | true =>
      simp only [if_true] at hseg
      cases hl : (Seq.lookupRange q.timeline (some s.lastEnd) (some (s.lastEnd + len))).getLast? with
      | none => rw [hl] at hseg; simpa using hseg.symm
      | some d =>
        rw [hl] at hseg
        simp only at hseg
        cases hd : Seq.discardBefore q d with
        | none => rw [hd] at hseg; simp at hseg
        | some q' => rw [hd] at hseg; simpa using hseg.symm

theorem Held.Good.mono {h : Held} {d : Seq.Doc} {top top' : Int} {lang : Option (List Char)} {mk : Option (List Char) × Option (List Char)}
    (hg : h.Good d top lang mk) (hle : top' ≤ top) : h.Good d top' lang mk :=
  ⟨hg.root, Convert.Good.mono hg.src hle, hg.marked, hg.space, hg.lang, hg.body⟩

/-- **C109**  For every course of events at a resequencer: at every media time that the segments emitted so far cover, all their
conversions played together show exactly what the document shows that was active at the corresponding instant when the
segment with that instant was extracted, each piece with the same language, white space handling, agents and roles, and
nothing if none was active; at other media times they show nothing. -/
theorem C109_whole_run_partial {src : Seq.Doc → Held} {discard : Bool} {start len : Int} (hl : 0 < len)
    (hms : start % 1000 = 0 ∧ len % 1000 = 0) (evs : List REv)
    (hrun : ∀ k, ∃ log, RReach (extractMarked src discard) start len
      (runR (extractMarked src discard) len { lastEnd := start } (evs.take k)).1 log)
    (m : Media) (hrd : m.rd.Accurate) (hz0 : 0 ≤ m.zero) (hzms : m.base = .clock → m.zero % 1000 = 0)
    (hz : m.base = .clock → m.zero ≤ start) (segs : List (RSeg (Option Part)))
    (hsegs : segs = (runR (extractMarked src discard) len { lastEnd := start } evs).2)
    (lang : Option (List Char)) (mk : Option (List Char) × Option (List Char))
    (hdocs : ∀ k q, (runR (extractMarked src discard) len { lastEnd := start } (evs.take k)).1.cons.seq = some (some q) → ∀ d ∈ q.docs,
      (src d).Good d (start + segs.length * len) lang mk ∧ NoDivRole Att.kind (src d).root.body ∧
        Convert.flat (forget (src d).root.body) = true ∧ (src d).src.base = m.base) (u : Int) (hu : 0 ≤ u) :
    (start ≤ u + m.shift ∧ u + m.shift < start + segs.length * len →
      ∃ k st q, evs[k]? = some .tick ∧ st = (runR (extractMarked src discard) len { lastEnd := start } (evs.take k)).1 ∧
        st.lastEnd ≤ u + m.shift ∧ u + m.shift < st.lastEnd + len ∧ st.cons.seq = some (some q) ∧
        (∀ a, Seq.ActiveAt q a (u + m.shift) → (segs.map (fun g => playedSeg m g u)).flatten = shownIn (src a) (u + m.shift)) ∧
        ((∀ a, ¬ Seq.ActiveAt q a (u + m.shift)) → (segs.map (fun g => playedSeg m g u)).flatten = [])) ∧
    (¬(start ≤ u + m.shift ∧ u + m.shift < start + segs.length * len) → (segs.map (fun g => playedSeg m g u)).flatten = []) := by
  have hone : ∀ k g, (reseq (extractMarked src discard) len (runR (extractMarked src discard) len { lastEnd := start } (evs.take k)).1 .tick).2 =
      some g → start ≤ g.lo ∧ g.hi ≤ start + segs.length * len →
      ∃ q, (runR (extractMarked src discard) len { lastEnd := start } (evs.take k)).1.cons.seq = some (some q) ∧
        g.lo = (runR (extractMarked src discard) len { lastEnd := start } (evs.take k)).1.lastEnd ∧ g.hi = g.lo + len ∧
        (g.lo ≤ u + m.shift ∧ u + m.shift < g.hi →
          (∀ a, Seq.ActiveAt q a (u + m.shift) → playedSeg m g u = shownIn (src a) (u + m.shift)) ∧
          ((∀ a, ¬ Seq.ActiveAt q a (u + m.shift)) → playedSeg m g u = [])) ∧
        (¬(g.lo ≤ u + m.shift ∧ u + m.shift < g.hi) → playedSeg m g u = []) := by
    intro k g htick hb
    obtain ⟨log, hr⟩ := hrun k
    have hd := hdocs k
    generalize hst : (runR (extractMarked src discard) len { lastEnd := start } (evs.take k)).1 = st at *
    obtain ⟨q, hq⟩ := Convert.tick_seq htick
    obtain ⟨o, ho, rfl⟩ := extractMarked_emits hq htick
    simp only at hb ⊢
    have hd := hd q hq
    obtain ⟨n, hn⟩ := hr.window
    have hmod : ((n : Int) * len) % 1000 = 0 := by
      rw [Int.mul_emod, hms.2]; simp
    obtain ⟨cfg, agid, l, hreach, _⟩ := Convert.RReach.seqOf (extractMarked_discards src discard) (by omega) hr q hq
    obtain ⟨out, hout, hshow⟩ := C109_played_is_active_partial hreach src (some st.lastEnd) (some (st.lastEnd + len)) (st.lastEnd + len)
      (by intro b hb; injection hb with hb; omega) (by intro e he; injection he with he; omega)
      (by intro b e hb he; injection hb with hb; injection he with he; omega) (by intro hc; simp at hc) lang mk
      (fun d hdm => (hd d hdm).1.mono (by omega)) (fun d hdm => (hd d hdm).2.1) (fun d hdm => (hd d hdm).2.2.1) m hrd hz0 hzms
      (fun d hdm => (hd d hdm).2.2.2) (fun hc => ⟨_, rfl, by have := hz hc; omega⟩)
    refine ⟨q, hq, trivial, trivial, ?_⟩
    rw [ho] at hout
    simp only [Option.map_some, Option.some.injEq] at hout
    unfold playedSeg
    simp only [hout]
    have := hshow u hu
    simp only [Win.at, Bool.and_eq_true, decide_eq_true_eq, Bool.and_eq_false_iff, decide_eq_false_iff_not] at this
    exact ⟨this.1, fun hx => this.2 (by omega)⟩
  obtain ⟨r1, r2⟩ := Convert.run_one hl evs segs hsegs (fun g => playedSeg m g u) (u + m.shift) (by
    intro g hg hb hout
    rw [hsegs] at hg
    obtain ⟨k, _, htick⟩ := Convert.runR_emits _ _ _ _ g hg
    obtain ⟨q, _, _, _, _, h6⟩ := hone k g htick hb
    exact h6 hout)
  refine ⟨?_, r2⟩
  intro hin
  obtain ⟨k, g, hg, b1, b2, b3, b4, hk, htick, he⟩ := r1 hin
  obtain ⟨q, hq, g1, g2, g3, _⟩ := hone k g htick ⟨b1, b2⟩
  refine ⟨k, _, q, hk, rfl, by omega, by omega, hq, ?_, ?_⟩
  · intro a ha
    rw [he]
    exact (g3 ⟨b3, b4⟩).1 a ha
  · intro hno
    rw [he]
    exact (g3 ⟨b3, b4⟩).2 hno

end Verif.Mark
