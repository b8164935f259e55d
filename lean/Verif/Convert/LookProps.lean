import Verif.Convert.LookLemmas

/-! Theorems about what a viewer of the EBU-TT-D documents sees: C107. -/
namespace Verif.Convert

open Verif.Doc hiding Name
open Verif.Style Verif.Time
open Verif.SegHead (mapN mapNL HDoc Full Piece piecesAt piecesOf newName)

/-- What is asked of a document that is encoded. -/
structure Encodable (m : Media) (o : HDoc) : Prop where
  body : ∃ a kids, o.body = .elem a kids ∧ a.kind = .body ∧ a.style = []
  shaped : shaped o.body = true
  unnested : unnested o.body = true
  /-- styles do not refer to styles, and are not named like generated ones -/
  flat : Flat o.head
  noClash : NoClash o.head
  /-- times on p and span only, not negative, in whole milliseconds, and nothing timed inside what has a begin -/
  plain : plainTimes o.body = true
  untimed : containersUntimed o.body = true
  inMs : inMs o.body = true
  once : m.base = .clock → beginsOnce o.body = true

theorem encodeH_ok {m : Media} {pr : Rat → List Char} {res : Rat × Rat} {place : Name → List Char × List Char} {o : HDoc} {d : DDoc}
    (h : encodeH m pr res place o = some d) : ∃ infos n, o.validate = .ok (infos, n) ∧
      convertDoc m pr o.head res place (mapN Full.pres n) = .ok d := by
  unfold encodeH at h
  cases hv : o.validate with
  | error e => rw [hv] at h; cases h
  | ok r =>
    obtain ⟨infos, n⟩ := r
    rw [hv] at h
    simp only at h
    cases hc : convertDoc m pr o.head res place (mapN Full.pres n) with
    | error e => rw [hc] at h; cases h
    | ok d' => rw [hc] at h; cases h; exact ⟨infos, n, rfl, hc⟩

theorem presentDoc_of_validate {o : HDoc} {infos : List RInfo} {n : Node Full} (hv : o.validate = .ok (infos, n)) :
    presentDoc o.head o.body = .ok (infos, mapN Full.pres n) := by
  obtain ⟨_, h1, _, ⟨pc, h2⟩, _⟩ := SegHead.validate_ok hv
  rw [presentDoc, h1]
  simp only [bind, Except.bind, h2]
  rfl

theorem map_eq_forall₂ {α β γ : Type} {f : α → γ} {g : β → γ} : ∀ {l : List α} {m : List β}, l.map f = m.map g →
    List.Forall₂ (fun a b => f a = g b) l m
  | [], [], _ => .nil
  | a :: l, b :: m, h => by
    simp only [List.map_cons, List.cons.injEq] at h
    exact .cons h.1 (map_eq_forall₂ h.2)
  | [], b :: m, h => by simp at h
  | a :: l, [], h => by simp at h

theorem filter_forall₂ {α β γ δ : Type} {R : α → β → Prop} {S : γ → δ → Prop} {p : α → Bool} {q : β → Bool} {f : α → γ} {g : β → δ}
    (hp : ∀ a b, R a b → p a = q b) (hS : ∀ a b, R a b → S (f a) (g b)) : ∀ {l : List α} {m : List β}, List.Forall₂ R l m →
    List.Forall₂ S ((l.filter p).map f) ((m.filter q).map g)
  | _, _, .nil => .nil
  | a :: l, b :: m, .cons h t => by
    have ih := filter_forall₂ hp hS t
    rw [List.filter_cons, List.filter_cons, hp a b h]
    split
    · exact .cons (hS a b h) ih
    · exact ih

theorem mapNL_get {α β : Type} (f : α → β) : ∀ (ks : List (Node α)) (i : Nat), (mapNL f ks)[i]? = (ks[i]?).map (mapN f)
  | [], _ => by simp [mapNL]
  | k :: ks, 0 => by simp [mapNL]
  | k :: ks, i + 1 => by simp [mapNL, mapNL_get f ks i]

theorem pick_mapN {α β : Type} (f : α → β) : ∀ (p : List Nat) (n : Node α), pick (mapN f n) p = (pick n p).map (fun r => (r.1.map f, mapN f r.2))
  | [], n => by cases n <;> rfl
  | i :: p, .text _ => rfl
  | i :: p, .br => rfl
  | i :: p, .elem x kids => by
    rw [mapN, pick, pick, mapNL_get]
    cases kids[i]? with
    | none => rfl
    | some k =>
      simp only [Option.map_some]
      rw [pick_mapN f p k, Option.map_map, Option.map_map]
      rfl

/-- The leaves of a validated document and of its conversion, one by one, with their looks. -/
theorem leaf_looks {m : Media} {pr : Rat → List Char} (hpr : Function.Injective pr) {res : Rat × Rat} {place : Name → List Char × List Char}
    {o : HDoc} (ho : Encodable m o) {infos : List RInfo} {n : Node Full} (hv : o.validate = .ok (infos, n)) {d : DDoc}
    (h : convertDoc m pr o.head res place (mapN Full.pres n) = .ok d) {out : Node Att} (hb : d.body = some out) :
    List.Forall₂ (fun (l : Full × List Item) (q : List Att × List Item) =>
        SameShown none ⟨l.2, l.1.pres.comp, l.1.pres.region.map (·.id)⟩ (dPiece d q)) (leaves Full.kind n) (pathLeaves out) := by
  obtain ⟨a0, kids0, hbody, hk0, hst0⟩ := ho.body
  have hdoc := presentDoc_of_validate hv
  have hs := ho.shaped
  have hu := ho.unnested
  rw [hbody] at hdoc hs hu
  have hids := (SegHead.validate_ok hv).1
  have hn : (o.head.regions.map (·.id)).Nodup := by
    unfold HDoc.ids at hids
    rw [List.nodup_append] at hids
    exact (List.nodup_append.mp hids.1).2.1
  obtain ⟨ds, sh, hds, hreg, hsty, hkeyed, hsame, _⟩ := convertDoc_body h hb
  have hkinds := same_kinds hsame
  -- the leaves with their positions
  have hpos : (leafPos Full.kind n).map (fun l => (l.1, l.2.2)) = (leafPos Att.kind out).map (fun l => (l.1, l.2.2)) := by
    apply leafPos_same
    have e1 : mapN Att.kind (mapN Full.att n) = mapN Full.kind n := SegHead.mapN_mapN Full.att Att.kind n
    have e2 : mapN Att.kind (forget (mapN Full.pres n)) = mapN (fun x : PLab => x.att.kind) (mapN Full.pres n) := by
      rw [SegHead.forget_eq, SegHead.mapN_mapN]
    obtain ⟨_, c, hp'⟩ := presentDoc_ok hdoc
    rw [hkinds, ← e2, present_forget hp', ← hbody, ← e1, (SegHead.validate_ok hv).2.2.2.2]
  have h1 := map_eq_forall₂ (leaves_pos Full.kind n)
  have h2 := forall₂_mem (map_eq_forall₂ hpos)
  have h3 := forall₂_trans (T := fun (l : Full × List Item) (q : List Nat × List Att × List Item) =>
    SameShown none ⟨l.2, l.1.pres.comp, l.1.pres.region.map (·.id)⟩ (dPiece d q.2)) ?_ h1 h2
  · rw [pathLeaves_pos, ← List.map_id (leaves Full.kind n)]
    exact forall₂_map h3
  · rintro l b q hlb ⟨hbq, hbm, hqm⟩
    simp only [Prod.mk.injEq] at hlb hbq
    obtain ⟨anc, x, kids, e1, e2, e3⟩ := leafPos_pick Full.kind n b hbm
    obtain ⟨anc', a, kids', g1, g2, g3⟩ := leafPos_pick Att.kind out q hqm
    have hlx : l.1 = x := by
      have := hlb.1
      rw [e2, List.getLast?_concat] at this
      exact Option.some.inj this
    have hp : pick (mapN Full.pres n) b.1 = some (anc.map Full.pres, .elem x.pres (mapNL Full.pres kids)) := by
      rw [pick_mapN, e1]; rfl
    obtain ⟨anc1, a1, kids1, k1, k2, _, k4, k5, k6⟩ := C73_looks_alike_partial m pr hpr o.head res place a0 kids0 hk0 hst0 hs hu ho.flat
      ho.noClash hn infos _ hdoc d out h hb b.1 _ _ _ hp
    rw [hbq.1, g1] at k1
    cases k1
    have hleaf : a.kind = .p ∨ a.kind = .span := by
      simp only [Leaf, Bool.and_eq_true, Bool.or_eq_true, decide_eq_true_eq] at g3
      exact g3.1
    obtain ⟨anc2, a2, kids2, z, j1, j2, j3⟩ := C74_font_sizes_partial m pr hpr o.head res place a0 kids0 hk0 hs
      ho.noClash infos _ hdoc d out h hb b.1 _ _ _ hp (by rw [← k2]; exact hleaf)
    rw [hbq.1, g1] at j1
    cases j1
    refine ⟨?_, ?_, ?_, ?_, ⟨z, ?_, ?_⟩, ?_⟩
    · exact hbq.2.symm.trans hlb.2.symm
    · intro y hy
      show dValue d q.2.1 y = _
      rw [g2, hlx]; exact k4 y hy
    · show Option.getD (Option.bind (q.2.1.getLast?) _) _ = _
      rw [g2, List.getLast?_concat, hlx]; exact k5
    · show Option.getD (Option.bind (q.2.1.getLast?) _) _ = _
      rw [g2, List.getLast?_concat, hlx]; exact k6
    · rw [hlx]; exact j2
    · show (dSize d q.2.1).2 = _
      rw [g2]; exact j3
    · show (dRegion d q.2.1).map (·.id) = ((l.1.pres.region).map (·.id)).map (newName none)
      have hforget : forget (mapN Full.pres n) = .elem a0 kids0 := by
        obtain ⟨_, c, hp'⟩ := presentDoc_ok hdoc
        exact present_forget hp'
      obtain ⟨anc3, a3, kids3, q1, q2, _⟩ := doc_path hsame hforget hk0 hp
      rw [hbq.1, g1] at q1
      cases q1
      have hreach := pick_reach hp
      have hnear := ((C32_computed_style_ignores_siblings_partial o.head _ hs hu infos _ hdoc).2 _ _ _ hreach).1
      rw [g2, hlx, dRegion, q2.nearest, ← hnear]
      cases hre : x.pres.region with
      | none => rfl
      | some i =>
        obtain ⟨r, hr1, hr2⟩ := doc_region hdoc hreach hre
        obtain ⟨f1, _, _⟩ := presentRegion_ok hr2
        obtain ⟨w, w1, w2⟩ := convRegions_find (convRegions_forall hds) hn r hr1 (n := i.id) f1.symm
        simp only [Option.map_some, Option.bind_some]
        rw [hreg, w2]
        obtain ⟨_, _, _, _, hw⟩ := convRegion_ok w1
        simp only [Option.map_some, Option.some.injEq]
        rw [hw]
        exact f1.symm

/-- **C107** (partial), one document: at every instant from availability and media time zero on, the EBU-TT-D document shows at the
corresponding media time the pieces of content that the live document shows, in the same order, each in the same region and looking
the same.

Missing: the conditions of `Encodable`, of which each is needed, see C43 and C73 (`C43_false_container_times`,
`C43_false_nested_clock_times`, `C43_false_microseconds`, `C73_false_nested_styles`, `C73_false_body_style`, `C75_false_clash`,
`C32_false_region`); of the look, multiRowAlign, padding, and the width of the font (`C73_false_multi_row_align`, `C73_false_padding`,
`C74_false_width`). -/
theorem C107_encoded_looks_alike_partial (m : Media) (hrd : m.rd.Accurate) (hz0 : 0 ≤ m.zero) (hz : m.base = .clock → m.zero % 1000 = 0)
    (pr : Rat → List Char) (hpr : Function.Injective pr) (res : Rat × Rat) (place : Name → List Char × List Char) (o : HDoc)
    (ho : Encodable m o) (d : DDoc) (h : encodeH m pr res place o = some d) (t : Int) (ht : o.avail ≤ t) (hs : m.shift ≤ t) :
    List.Forall₂ (SameShown none) (piecesOf o t) (dPiecesAt d (t - m.shift)) := by
  obtain ⟨infos, n, hv, hc⟩ := encodeH_ok h
  have hlab := (SegHead.validate_ok hv).2.2.1
  unfold piecesOf
  rw [hv]
  simp only
  obtain ⟨a0, kids0, hbody, hk0, hst0⟩ := ho.body
  have hdoc := presentDoc_of_validate hv
  obtain ⟨_, c, hp'⟩ := presentDoc_ok hdoc
  have hforget := present_forget hp'
  cases hb : d.body with
  | none =>
    have hnd : hasDiv o.body = false := by
      obtain ⟨ds, _, _, h3⟩ := convertDoc_ok hc
      rcases h3 with ⟨h4, _, _⟩ | ⟨_, out, sh, _, h6, _⟩
      · rw [← hforget]; exact h4
      · rw [h6] at hb; cases hb
    have hkids : kids0 = [] := by
      have hsh := ho.shaped
      rw [hbody] at hnd hsh
      cases kids0 with
      | nil => rfl
      | cons k ks =>
        simp only [shaped, Bool.and_eq_true, List.all_cons, hk0] at hsh
        have hf := hsh.1.1
        cases k with
        | text s => simp [fits] at hf
        | br => simp [fits] at hf
        | elem b bs =>
          simp only [fits, decide_eq_true_eq] at hf
          simp [hasDiv, hf] at hnd
    have hnil : piecesAt n t = [] := by
      apply SegHead.pieces_nil
      rw [hlab, hbody, hkids]
      simp [shownAt, times, timesL, leavesOf, leaves, Leaf, leavesL, hk0]
    rw [hnil]
    unfold dPiecesAt
    rw [hb]
    exact .nil
  | some out =>
    have hlooks := leaf_looks hpr ho hv hc hb
    obtain ⟨oo, hcv, he⟩ := C43_whole_document m pr o.head res place _ d hc
    rw [hforget] at hcv
    rw [hb, Option.map_some] at he
    cases oo with
    | none => cases he
    | some c' =>
      simp only [Option.map_some, Option.some.injEq] at he
      have hconv : conv m o.body = .ok c' := by
        rw [convertBody] at hcv
        split at hcv
        · cases hq : conv m o.body with
          | error e => rw [hq] at hcv; cases hcv
          | ok n' => rw [hq] at hcv; cases hcv; rfl
        · cases hcv
      have htimes := leaf_times_conv (avail := o.avail) hrd hz0 hz ho.shaped ho.plain ho.untimed ho.inMs ho.once hconv he
      rw [← hlab, SegHead.leavesOf_mapN, ← List.map_id (pathLeaves out)] at htimes
      have hboth := SegHead.forall₂_and hlooks (SegHead.forall₂_unmap htimes)
      unfold piecesAt dPiecesAt
      rw [hb]
      exact filter_forall₂ (fun a b hab => hab.2.2 t ht hs) (fun a b hab => hab.1) hboth

end Verif.Convert
