import Verif.Mark.Instants
import Verif.Doc.ResegProps

/-!
# C109 for sequences: what a resequenced document shows, with marks, is what the active document shows
-/
namespace Verif.Mark

open Verif.Doc (Node Att Kind Lab Comp Win Env SErr TErr Item Overlaps bind_ok erase eraseL shaped shapedL unmixed unmixedL fits items Leaf isSpan
  leaves leavesL Visible inSeg Cov times timesL Sane wellTimed inMs validateDoc compOf SegBody)
open Verif.SegHead (mapN mapNL mapNL_append leaves_mapN leavesL_mapN items_mapNL)

/-- What a returned document shows at `t`, with marks, once validated (ebutt3.py:1007). -/
def shownBy (out : Option Part) (t : Int) : List (List Item × Around) :=
  match out with
  | none => []
  | some p =>
    match validate 0 p.doc with
    | .error _ => []
    | .ok doc => doc.shownAt t

/-- What a held document shows at `t`, with marks. -/
def shownIn (h : Held) (t : Int) : List (List Item × Around) :=
  match validate h.src.avail h.root with
  | .error _ => []
  | .ok doc => doc.shownAt t

/-- What the theorem assumes of a held document: what `C28_resegmented_shows_active_partial` does, only the marks the schema
allows, no `xml:space` on tt, and the sequence's common language, body agent and body role. -/
structure Held.Good (h : Held) (d : Seq.Doc) (top : Int) (lang : Option (List Char)) (mk : Option (List Char) × Option (List Char)) : Prop where
  root : h.src.root = forget h.root.body
  src : h.src.Good d top
  marked : Marked Att.kind h.root.body
  space : h.root.space = none
  lang : h.root.lang = lang
  body : bodyMarks h.root.body = mk

/-! ### Content on its own -/

/-- What content validated on its own shows. -/
def shownContent (c : Around) (ns : List (Node (Att × Marks))) (t : Int) : List (List Item × Around) :=
  ((leavesL (fun x => x.1.kind) (aroundL c ns)).filter (fun l => (compOf 0 0 none l.1.1 []).at t)).map (fun l => (l.2, l.1.2))

theorem shownContent_append (c : Around) (a b : List (Node (Att × Marks))) (t : Int) :
    shownContent c (a ++ b) t = shownContent c a t ++ shownContent c b t := by
  simp [shownContent, aroundL_append, leavesL_append]

/-- Without identifiers. -/
abbrev plainA (a : Att) : Att := { a with id := none }
abbrev plainM (x : Att × Marks) : Att × Marks := (plainA x.1, x.2)

theorem shownContent_plain (c : Around) (ns : List (Node (Att × Marks))) (t : Int) :
    shownContent c (mapNL plainM ns) t = shownContent c ns t := by
  unfold shownContent
  have h1 : aroundL c (mapNL plainM ns) = mapNL (fun x => (plainA x.1, x.2)) (aroundL c ns) := mapNL_around plainA ns c
  rw [h1, leavesL_mapN, List.filter_map, List.map_map]
  rfl

theorem copyMarks_id {kd : Kind} {m : Marks} (h : (kd = .body ∨ kd = .div) → m.lang = none ∧ m.space = none) : copyMarks kd m = m := by
  cases kd with
  | p => rfl
  | span => rfl
  | div => obtain ⟨h1, h2⟩ := h (.inr rfl); cases m; simp_all [copyMarks]
  | body => obtain ⟨h1, h2⟩ := h (.inl rfl); cases m; simp_all [copyMarks]

mutual
theorem rename_plain : ∀ (n : Node (Att × Marks)) (ids : List Doc.Name), Marked Att.kind n →
    mapN plainM (renameNode ids n).2 = mapN plainM n
  | .text s, _, _ => rfl
  | .br, _, _ => rfl
  | .elem a kids, ids, h => by
    rw [Marked] at h
    have ih := renameL_plain kids ids h.2
    rw [renameNode]
    cases a.1.id with
    | none => simp only [mapN]; rw [ih, copyMarks_id h.1]
    | some x => simp only [mapN]; rw [ih, copyMarks_id h.1]
theorem renameL_plain : ∀ (ns : List (Node (Att × Marks))) (ids : List Doc.Name), MarkedL Att.kind ns →
    mapNL plainM (renameList ids ns).2 = mapNL plainM ns
  | [], _, _ => rfl
  | k :: ks, ids, h => by
    rw [MarkedL] at h
    simp only [renameList, mapNL]
    rw [rename_plain k ids h.1, renameL_plain ks _ h.2]
end

/-- The content of spliced documents, up to identifiers. -/
theorem merge_plain {ps : List Part} (hps : ∀ p ∈ ps, Bodied Att.kind p.doc.body) :
    ∀ (st : List Doc.Name × Part), Bodied Att.kind st.2.doc.body →
    mapNL plainM (contentOf (ps.foldl mergeDoc st).2.doc.body) =
      mapNL plainM (contentOf st.2.doc.body) ++ ps.flatMap (fun p => mapNL plainM (contentOf p.doc.body)) := by
  induction ps with
  | nil => intro st _; rw [List.flatMap_nil, List.append_nil]; rfl
  | cons p ps ih =>
    intro st hst
    rw [List.foldl_cons]
    have hp := hps p List.mem_cons_self
    have hnew := (merge_said (ps := [p]) (by simpa using hp) st hst).1
    simp only [List.foldl_cons, List.foldl_nil] at hnew
    rw [ih (fun q hq => hps q (List.mem_cons_of_mem _ hq)) _ hnew, List.flatMap_cons]
    have : mapNL plainM (contentOf (mergeDoc st p).2.doc.body) =
        mapNL plainM (contentOf st.2.doc.body) ++ mapNL plainM (contentOf p.doc.body) := by
      show mapNL plainM (_ ++ _) = _
      rw [mapNL_append, renameL_plain _ _ (marked_content hst.marked), renameL_plain _ _ (marked_content hp.marked)]
    rw [this, List.append_assoc]

theorem shownContent_flat (c : Around) (t : Int) : ∀ l : List Part,
    shownContent c (l.flatMap (fun p => mapNL plainM (contentOf p.doc.body))) t =
      (l.map (fun p => shownContent c (contentOf p.doc.body) t)).flatten
  | [] => rfl
  | p :: l => by
    rw [List.flatMap_cons, shownContent_append, shownContent_plain, shownContent_flat c t l, List.map_cons, List.flatten_cons]

/-- A segment's or spliced document's body, validated: what it shows is what its content shows on its own. -/
theorem segBody_shown {d : MDoc Att} {o : MDoc Lab} (hb : SegBody (forget d.body)) (h : validate 0 d = .ok o) (t : Int) :
    o.shownAt t = shownContent d.inBody (contentOf d.body) t := by
  obtain ⟨l1, s1, f1, m1⟩ := validate_ok h
  generalize hc : outer d.lang d.space = c
  have hleaves : Doc.leavesOf (times 0 0 none (forget d.body)) =
      (Doc.leavesAtt (forget d.body)).map (fun l => (⟨l.1, compOf 0 0 none l.1 []⟩, l.2)) := by
    obtain ⟨a, ha, hk, hcase⟩ := hb.elem
    have hf := hb.fit
    simp only [Doc.Fit, Bool.and_eq_true] at hf
    generalize Doc.contentOf (forget d.body) = ks at *
    rw [ha]
    rcases hcase with rfl | hcase
    · simp [times, timesL, Doc.leavesOf, Doc.leavesAtt, leaves, Leaf, leavesL, hk]
    · exact Doc.times_leaves (.elem a ks) (by simp [shaped, hk, hf.1.1, hf.1.2]) (by simp [Doc.tidy, hk, Doc.hasContent, hcase, hf.2])
  have hcomp : ∀ l ∈ leaves (fun x => lkind x.1) (around c o.body), l.1.1.comp = compOf 0 0 none l.1.1.att [] := by
    intro l hl
    have : (l.1.1, l.2) ∈ Doc.leavesOf (forget o.body) := by
      rw [Doc.leavesOf, leaves_around lkind c]
      exact List.mem_map_of_mem (f := fun l : (Lab × Around) × List Item => (l.1.1, l.2)) hl
    rw [f1, hleaves] at this
    obtain ⟨l', _, he⟩ := List.mem_map.mp this
    simp only [Prod.mk.injEq] at he
    rw [← he.1]
  have hd : leaves (fun x => x.1.kind) (around c d.body) =
      (leaves (fun x => lkind x.1) (around c o.body)).map (fun l => ((l.1.1.att, l.1.2), l.2)) := by
    rw [← m1, mapN_around Lab.att, leaves_mapN]
  have hbody : leaves (fun x => x.1.kind) (around c d.body) = leavesL (fun x => x.1.kind) (aroundL d.inBody (contentOf d.body)) := by
    obtain ⟨a, ha, hk, _⟩ := hb.elem
    unfold MDoc.inBody
    cases hn : d.body with
    | text s => rw [hn] at ha; simp [mapN] at ha
    | br => rw [hn] at ha; simp [mapN] at ha
    | elem x kids =>
      rw [hn] at ha
      simp only [forget, mapN, Node.elem.injEq] at ha
      simp only [around, leaves, contentOf, hc]
      rw [if_neg]
      simp [Leaf, ha.1, hk]
  unfold MDoc.shownAt shownContent
  rw [l1, s1, hc, ← hbody, hd, List.filter_map, List.map_map]
  have : (leaves (fun x => x.1.att.kind) (around c o.body)).filter (fun l => l.1.1.comp.at t) =
      (leaves (fun x => lkind x.1) (around c o.body)).filter (fun l => (compOf 0 0 none l.1.1.att []).at t) :=
    List.filter_congr (fun l hl => by rw [hcomp l hl])
  rw [this]
  rfl

/-- Forgetting the marks of what is shown. -/
theorem shown_forget (d : MDoc Lab) (t : Int) : (d.shownAt t).map (·.1) = Doc.shownAt (forget d.body) t := by
  unfold MDoc.shownAt Doc.shownAt
  rw [Doc.leavesOf, leaves_around lkind (outer d.lang d.space), List.filter_map, List.map_map, List.map_map]
  rfl

theorem validate_exists (avail : Int) (d : MDoc Att) : ∃ o, validate avail d = .ok o := by
  unfold validate
  rw [Doc.validateDoc_eq]
  exact ⟨_, rfl⟩

theorem shownIn_forget {h : Held} (hr : h.src.root = forget h.root.body) (t : Int) : (shownIn h t).map (·.1) = Doc.shownIn h.src t := by
  obtain ⟨o, ho⟩ := validate_exists h.src.avail h.root
  obtain ⟨_, _, f1, _⟩ := validate_ok ho
  unfold shownIn Doc.shownIn
  rw [ho, Doc.validateDoc_eq, hr]
  simp only
  rw [shown_forget, f1]

theorem segmentOf_forget {h : Held} (hr : h.src.root = forget h.root.body) (num : Nat) (w : Win) :
    Doc.segmentOf h.src num w = (segmentOf h num w).map Part.forget := by
  obtain ⟨o, ho⟩ := validate_exists h.src.avail h.root
  obtain ⟨_, _, f1, _⟩ := validate_ok ho
  unfold Doc.segmentOf segmentOf
  rw [ho, Doc.validateDoc_eq, hr, ← f1]
  simp only
  unfold segmentDoc
  rw [forget_segment]
  cases segment (h.src.env num w) o.body <;> rfl

/-- Marks of a validated document's body. -/
theorem validated_body {avail : Int} {d : MDoc Att} {o : MDoc Lab} (h : validate avail d = .ok o) (hm : Marked Att.kind d.body) :
    Marked lkind o.body ∧ bodyMarks o.body = bodyMarks d.body := by
  obtain ⟨_, _, _, m1⟩ := validate_ok h
  refine ⟨marked_attOf _ (by rw [m1]; exact hm), ?_⟩
  rw [← m1]
  cases o.body <;> rfl

/-- The divs of a body that has the schema's shape. -/
theorem bodied_of_shaped {d : MDoc Lab} {x : Lab} {kids : List (Node Lab)} (hx : forget d.body = .elem x kids) (hk : x.att.kind = .body)
    (hm : Marked lkind d.body) (hs : shaped (erase (forget d.body)) = true) : Bodied lkind d.body := by
  refine ⟨?_, hm⟩
  cases hn : d.body with
  | text s => rw [hn] at hx; simp [mapN] at hx
  | br => rw [hn] at hx; simp [mapN] at hx
  | elem y ks =>
    rw [hn] at hx hs
    simp only [forget, mapN, Node.elem.injEq] at hx
    have hyk : y.1.att.kind = .body := by rw [hx.1]; exact hk
    refine ⟨y, ks, rfl, hyk, ?_⟩
    simp only [forget, mapN, erase, shaped, Bool.and_eq_true] at hs
    rw [hyk] at hs
    intro k hkm
    have : erase (forget k) ∈ eraseL (forgetL ks) := by
      clear hs hx hn
      induction ks with
      | nil => simp at hkm
      | cons z zs ih =>
        simp only [forgetL, mapNL, eraseL, List.mem_cons] at hkm ⊢
        rcases hkm with rfl | hkm
        · exact .inl rfl
        · exact .inr (ih hkm)
    have := List.all_eq_true.mp hs.1 _ this
    cases k with
    | text s => simp [mapN, erase, fits] at this
    | br => simp [mapN, erase, fits] at this
    | elem b kk => exact ⟨b, kk, rfl, by simpa [mapN, erase, fits] using this⟩

/-- The segment of one document's window. -/
theorem segmentOf_shown {h : Held} {d : Seq.Doc} {top : Int} {lang : Option (List Char)} {mk : Option (List Char) × Option (List Char)}
    (hg : h.Good d top lang mk) (num : Nat) {wb : Option Int} {we : Int}
    (h0 : ∀ b, wb = some b → b % 1000 = 0) (hhi : we ≤ top) (he : we % 1000 = 0) :
    (∀ p, segmentOf h num ⟨wb, some we⟩ = some p → SegBody (forget p.doc.body) ∧ Bodied Att.kind p.doc.body ∧ p.doc.lang = lang ∧ p.doc.space = none ∧
      bodyMarks p.doc.body = mk) ∧
    ∀ t, (segmentOf h num ⟨wb, some we⟩).elim [] (fun p => shownContent p.doc.inBody (contentOf p.doc.body) t) =
      if Win.at ⟨wb, some we⟩ t then shownIn h t else [] := by
  obtain ⟨u1, u2⟩ := Doc.segmentOf_shown hg.src num h0 hhi he
  rw [segmentOf_forget hg.root] at u1 u2
  obtain ⟨o, ho⟩ := validate_exists h.src.avail h.root
  obtain ⟨l1, s1, f1, m1⟩ := validate_ok ho
  obtain ⟨b1, b2⟩ := validated_body ho hg.marked
  obtain ⟨x, kids, hx, hk, _, _, her⟩ := Doc.good_body hg.src.toSound
  have hfx : forget o.body = .elem x kids := by rw [f1, ← hg.root]; exact hx
  have hsh : shaped (erase (forget o.body)) = true := by rw [hfx, her]; exact hg.src.shaped
  have hbod := bodied_of_shaped hfx hk b1 hsh
  have hcases : (∃ seg, segmentDoc (h.src.env num ⟨wb, some we⟩) o = .ok seg ∧
      segmentOf h num ⟨wb, some we⟩ = some ⟨h.src.styles ⟨wb, some we⟩, h.src.regions ⟨wb, some we⟩, seg⟩) ∨
      segmentOf h num ⟨wb, some we⟩ = none := by
    unfold segmentOf
    rw [ho]
    simp only
    cases segmentDoc (h.src.env num ⟨wb, some we⟩) o with
    | error e => exact .inr rfl
    | ok seg => exact .inl ⟨seg, rfl, rfl⟩
  rcases hcases with ⟨seg, hseg, heq⟩ | hnone
  · rw [heq] at u1 u2 ⊢
    obtain ⟨c1, c2, c3, c4, _⟩ := segment_bodied hseg hbod hsh
    have hsb : SegBody (forget seg.body) := u1 _ rfl
    refine ⟨?_, ?_⟩
    · intro p hp
      injection hp with hp
      subst hp
      exact ⟨hsb, c1, by rw [c2, l1]; exact hg.lang, c3, by rw [c4, b2]; exact hg.body⟩
    · intro t
      have hbase : (h.src.env num ⟨wb, some we⟩).base ≠ .smpte := by
        intro hc
        have hc : h.src.base = .smpte := hc
        rcases hg.src.base with hb | ⟨hb, _⟩ <;> rw [hb] at hc <;> simp at hc
      have hr := hg.root
      obtain ⟨segdoc, hsd, hshow⟩ := C109_at_each_instant_partial (h.src.env num ⟨wb, some we⟩) hg.src.rd hbase h.src.avail
        hg.src.avail h.root hg.space hg.marked (hr ▸ hg.src.sane) (hr ▸ hg.src.shaped) (hr ▸ hg.src.unmixed) (hr ▸ hg.src.wellTimed)
        (hr ▸ hg.src.inMs) hg.src.availMs
        (by
          intro t ht
          rcases ht with ht | ht
          · exact h0 t ht
          · simp only [Doc.Source.env, Option.some.injEq] at ht; omega) o ho seg hseg
      show shownContent seg.inBody (contentOf seg.body) t = _
      rw [← segBody_shown hsb hsd, hshow t]
      unfold shownIn
      rw [ho]
      rfl
  · rw [hnone] at u2 ⊢
    refine ⟨by simp, ?_⟩
    intro t
    have := u2 t
    simp only [Option.map_none, Option.elim_none] at this ⊢
    split
    · rename_i ht
      rw [if_pos ht, ← shownIn_forget hg.root, eq_comm, List.map_eq_nil_iff] at this
      exact this.symm
    · rfl

theorem splice_shown {ps : List Part} {lang : Option (List Char)} {mk : Option (List Char) × Option (List Char)}
    (h : ∀ p ∈ ps, SegBody (forget p.doc.body) ∧ Bodied Att.kind p.doc.body ∧ p.doc.lang = lang ∧ p.doc.space = none ∧
      bodyMarks p.doc.body = mk) (t : Int) :
    shownBy (splice ps) t = (ps.map (fun p => shownContent p.doc.inBody (contentOf p.doc.body) t)).flatten := by
  cases ps with
  | nil => rfl
  | cons p ps =>
    have hp := h p List.mem_cons_self
    have hps : ∀ q ∈ ps, Bodied Att.kind q.doc.body := fun q hq => (h q (List.mem_cons_of_mem _ hq)).2.1
    obtain ⟨g1, g2, g3, g4, _, _⟩ := merge_said hps ([], p) hp.2.1
    have hplain := merge_plain hps ([], p) hp.2.1
    have hsb : SegBody (forget (ps.foldl mergeDoc ([], p)).2.doc.body) := by
      have hf := forget_splice (p :: ps)
      simp only [List.map_cons, Doc.splice, splice, Option.map_some, Option.some.injEq] at hf
      have := Doc.fold_body (ps.map Part.forget) ([], p.forget) hp.1 (by
        intro d hd
        obtain ⟨q, hq, rfl⟩ := List.mem_map.mp hd
        exact (h q (List.mem_cons_of_mem _ hq)).1)
      rw [hf] at this
      exact this
    unfold shownBy splice
    obtain ⟨o, ho⟩ := validate_exists 0 (ps.foldl mergeDoc ([], p)).2.doc
    simp only
    rw [ho]
    simp only
    rw [segBody_shown hsb ho, ← shownContent_plain, hplain]
    have hin : ((ps.foldl mergeDoc ([], p)).2.doc).inBody = p.doc.inBody := inBody_eq g1 hp.2.1 g2 g3 g4
    rw [hin]
    have := shownContent_flat p.doc.inBody t (p :: ps)
    rw [List.flatMap_cons] at this
    show shownContent p.doc.inBody (mapNL plainM (contentOf p.doc.body) ++ _) t = _
    rw [this]
    congr 1
    apply List.map_congr_left
    intro q hq
    have hq' := h q hq
    rw [inBody_eq hp.2.1 hq'.2.1 (hp.2.2.1.trans hq'.2.2.1.symm) (hp.2.2.2.1.trans hq'.2.2.2.1.symm) (hp.2.2.2.2.trans hq'.2.2.2.2.symm)]

/-- **C109**: for every reachable sequence and every window, what the extracted document shows at an instant of the window is
what the document active at that instant shows, each piece with the same language, white space handling, agents and roles
around it; where no document is active, and outside the window, it shows nothing.  Assumes of the held documents what
`Held.Good` lists. -/
theorem C109_resequenced_partial {cfg : Seq.Cfg} {agid : Option String} {s : Seq.State} {log : List Seq.Doc}
    (h : Seq.Reach cfg agid s log) (src : Seq.Doc → Held) (lo hi : Option Int) (top : Int)
    (hlo : ∀ b, lo = some b → b % 1000 = 0) (hhi : ∀ e, hi = some e → e ≤ top ∧ e % 1000 = 0)
    (hlh : ∀ b e, lo = some b → hi = some e → b ≤ e)
    (hopen : hi = none → ∀ d ∈ s.docs, ∃ e, Seq.resolvedEnd s d = some (some e) ∧ e ≤ top)
    (lang : Option (List Char)) (mk : Option (List Char) × Option (List Char))
    (hg : ∀ d ∈ s.docs, (src d).Good d top lang mk) :
    ∃ out, extractSegment s src lo hi = some out ∧
      ∀ t, (Win.at ⟨lo, hi⟩ t = true → (∀ a, Seq.ActiveAt s a t → shownBy out t = shownIn (src a) t) ∧
          ((∀ a, ¬ Seq.ActiveAt s a t) → shownBy out t = [])) ∧
        (Win.at ⟨lo, hi⟩ t = false → shownBy out t = []) := by
  obtain ⟨ws, hws, hbd, hact⟩ := Doc.extract_active h (fun d => (src d).src) lo hi top hlo hhi hlh hopen (fun d hd => (hg d hd).src.toSound)
    (fun d t => shownIn (src d) t) (fun d hd t ht => by
      have := Doc.good_shown_outside (hg d hd).src.toSound ht
      rw [← shownIn_forget (hg d hd).root, List.map_eq_nil_iff] at this
      exact this)
  have hseg : ∀ w ∈ ws, (∀ p, segmentOf (src w.1) w.1.num ⟨w.2.1, w.2.2⟩ = some p → SegBody (forget p.doc.body) ∧ Bodied Att.kind p.doc.body ∧
      p.doc.lang = lang ∧ p.doc.space = none ∧ bodyMarks p.doc.body = mk) ∧
      ∀ t, (segmentOf (src w.1) w.1.num ⟨w.2.1, w.2.2⟩).elim [] (fun p => shownContent p.doc.inBody (contentOf p.doc.body) t) =
        if Win.at ⟨w.2.1, w.2.2⟩ t then shownIn (src w.1) t else [] := by
    intro w hw
    obtain ⟨hwd, h1, we, h2, h3, h4⟩ := hbd w hw
    rw [h2]
    exact segmentOf_shown (hg w.1 hwd) w.1.num h1 h3 h4
  have hshow : ∀ t, shownBy (splice (ws.filterMap (fun w => segmentOf (src w.1) w.1.num ⟨w.2.1, w.2.2⟩))) t =
      (ws.map (fun w => if Win.at ⟨w.2.1, w.2.2⟩ t then shownIn (src w.1) t else [])).flatten := by
    intro t
    rw [splice_shown (lang := lang) (mk := mk), Doc.filterMap_flatten]
    · congr 1
      apply List.map_congr_left
      intro w hw
      exact (hseg w hw).2 t
    · intro sd hsd
      rw [List.mem_filterMap] at hsd
      obtain ⟨w, hw, he⟩ := hsd
      exact (hseg w hw).1 sd he
  refine ⟨_, by rw [extractSegment, hws]; rfl, ?_⟩
  intro t
  rw [hshow t]
  exact hact t

end Verif.Mark
