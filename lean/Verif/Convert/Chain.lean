import Verif.Doc.ResegProps
import Verif.Convert.Props

/-
The document extracted from a sequence and converted to EBU-TT-D: `EBUTT3DocumentSequence.extract_segment`
(`/repo/ebu_tt_live/documents/ebutt3.py:956-1010`) followed by the converter, as the resequencer and the encoder are set up
(`/repo/ebu_tt_live/node/consumer.py:120-151`, `/repo/ebu_tt_live/node/encoder.py:35-48`).
-/
namespace Verif.Convert

open Verif.Doc Verif.Time

/-- `EBUTTDEncoder.process_document` (node/encoder.py:35-48), the body of the converted document.  `none`: the empty document
that is returned when there is nothing to extract (documents/ebutt3.py:995-997); its body has no div, so the converted one has
no body (ebutt3_ebuttd.py:242-243). -/
def encode (m : Media) (o : Option SDoc) : Except CErr (Option (Node Att)) :=
  o.elim (.ok none) (fun d => convertBody m d.body)

/-- Extraction (documents/ebutt3.py:956-1010) and conversion.  Outer `none`: the extraction raises. -/
def deliver (s : Seq.State) (src : Seq.Doc → Source) (lo hi : Option Int) (m : Media) : Option (Except CErr (Option (Node Att))) :=
  (extractSegment s src lo hi).map (encode m)

/-! ### Specification -/

/-- What an EBU-TT-D document shows at a media time: from the times written in it; nothing without a body. -/
def playedAt (o : Option (Node Att)) (u : Int) : List (List Item) := o.elim [] (fun n => writtenAt n u)

mutual
/-- The structure EBU-TT-D has room for: divs in body, p in div, spans, text and line breaks in p, text and line breaks in
span. -/
def flat : Node Att → Bool
  | .elem a kids => kids.all (fitsD a.kind) && flatL kids
  | _ => true
def flatL : List (Node Att) → Bool
  | [] => true
  | k :: ks => flat k && flatL ks
end

/-! ### Lemmas: structure -/

theorem flatL_append (a b : List (Node Att)) : flatL (a ++ b) = (flatL a && flatL b) := by
  induction a with
  | nil => rfl
  | cons k ks ih => simp [flatL, ih, Bool.and_assoc]

theorem fitsD_plain (kd : Kind) : ∀ (ns : List (Node Att)), (plainL ns).all (fitsD kd) = ns.all (fitsD kd)
  | [] => rfl
  | k :: ks => by
    rw [plainL, List.all_cons, List.all_cons, fitsD_plain kd ks]
    congr 1
    cases k <;> rfl

mutual
theorem flat_plain : ∀ (n : Node Att), flat (plain n) = flat n
  | .text s => rfl
  | .br => rfl
  | .elem a kids => by rw [plain, flat, flat, flatL_plain kids, fitsD_plain]
theorem flatL_plain : ∀ (ns : List (Node Att)), flatL (plainL ns) = flatL ns
  | [] => rfl
  | k :: ks => by rw [plainL, flatL, flatL, flat_plain k, flatL_plain ks]
end

theorem segList_fitsD {v : Env} {kd : Kind} : ∀ {kids : List (Node Lab)} {ks : List (Node Att)},
    segList v kids = .ok ks → (eraseL kids).all (fitsD kd) = true → ks.all (fitsD kd) = true := by
  intro kids
  induction kids with
  | nil => intro ks h _; simp only [segList, Except.ok.injEq] at h; rw [← h]; rfl
  | cons k kids ih =>
    intro ks h hf
    obtain ⟨o, rest, ho, hr, rfl⟩ := segList_cons h
    simp only [eraseL, List.all_cons, Bool.and_eq_true] at hf
    rw [List.all_append, ih hr hf.2, Bool.and_true]
    cases o with
    | none => rfl
    | some m =>
      have h1 := hf.1
      rcases segNode_kind ho with ⟨s, rfl, rfl⟩ | ⟨rfl, rfl⟩ | ⟨x, kids', a, ks', rfl, rfl, hk⟩
      · simpa [erase] using h1
      · simpa [erase] using h1
      · simp only [erase, fitsD] at h1
        simp only [Option.toList, List.all_cons, List.all_nil, Bool.and_true, fitsD, hk]
        exact h1

mutual
theorem seg_flat {v : Env} : ∀ (n : Node Lab) (o : Option (Node Att)), segNode v n = .ok o →
    flat (erase n) = true → flatL o.toList = true
  | .text s, o, h, hs => by
    simp only [segNode, Except.ok.injEq] at h
    subst h; rfl
  | .br, o, h, hs => by
    simp only [segNode, Except.ok.injEq] at h
    subst h; rfl
  | .elem x kids, o, h, hs => by
    simp only [erase, flat, Bool.and_eq_true] at hs
    rcases segNode_elem h with ⟨hin, rfl⟩ | ⟨hin, a, ks, ha, hks, ⟨_, rfl⟩ | ⟨he, a', ha', rfl⟩⟩
    · rfl
    · rfl
    · have ih := segL_flat kids ks hks hs.2
      have hkind := (leafTiming_kind ha').1
      rw [copyAtt_kind ha] at hkind
      simp only [Option.toList, flatL, flat, Bool.and_true, Bool.and_eq_true, hkind]
      exact ⟨segList_fitsD hks hs.1, ih⟩
theorem segL_flat {v : Env} : ∀ (ns : List (Node Lab)) (out : List (Node Att)), segList v ns = .ok out →
    flatL (eraseL ns) = true → flatL out = true
  | [], out, h, _ => by
    simp only [segList, Except.ok.injEq] at h
    subst h; rfl
  | k :: ks, out, h, hs => by
    obtain ⟨o, rest, ho, hr, rfl⟩ := segList_cons h
    simp only [eraseL, flatL, Bool.and_eq_true] at hs
    rw [flatL_append, seg_flat k o ho hs.1, segL_flat ks rest hr hs.2]
    rfl
end

theorem segment_flat {v : Env} {x : Lab} {kids : List (Node Lab)} (hf : flat (erase (.elem x kids)) = true) {seg : Node Att}
    (h : segment v (.elem x kids) = .ok seg) : flatL (contentOf seg) = true := by
  obtain ⟨a, ks, hseg, hk, hcase⟩ := segment_cases h
  have h1 := seg_flat _ _ hseg hf
  simp only [Option.toList, flatL, Bool.and_true, flat, Bool.and_eq_true] at h1
  rcases hcase with ⟨_, rfl⟩ | ⟨rfl, b, e, _, _, rfl⟩
  · exact h1.2
  · rfl

/-! ### Lemmas: written times -/

/-- The times of a leaf: given, in whole milliseconds, not negative, the end later than zero, and convertible. -/
def LeafOk (m : Media) (a : Att) : Prop :=
  a.dur = none ∧ ∃ b e, a.beg = some b ∧ a.fin = some e ∧ b.delta % 1000 = 0 ∧ e.delta % 1000 = 0 ∧ 0 ≤ b.delta ∧ 0 < e.delta ∧
    timeFits m (some b) = true ∧ timeFits m (some e) = true

/-- All that the conversion asks for. -/
def Ready (m : Media) (ns : List (Node Att)) : Prop :=
  containersUntimedL ns = true ∧ plainTimesL ns = true ∧ inMsL ns = true ∧ beginsOnceL ns = true ∧ convertibleL m ns = true

theorem bare_ready (m : Media) : ∀ (ns : List (Node Att)), (∀ a kids, .elem a kids ∉ ns) → Ready m ns ∧ untimedInL ns = true
  | [], _ => ⟨⟨rfl, rfl, rfl, rfl, rfl⟩, rfl⟩
  | .elem a kids :: ns, h => absurd List.mem_cons_self (h a kids)
  | .text s :: ns, h => by
    obtain ⟨⟨h1, h2, h3, h4, h5⟩, h6⟩ := bare_ready m ns (fun a kids hm => h a kids (List.mem_cons_of_mem _ hm))
    simp [Ready, containersUntimedL, containersUntimed, plainTimesL, plainTimes, inMsL, inMs, beginsOnceL, beginsOnce, convertibleL,
      convertible, untimedInL, untimedIn, h1, h2, h3, h4, h5, h6]
  | .br :: ns, h => by
    obtain ⟨⟨h1, h2, h3, h4, h5⟩, h6⟩ := bare_ready m ns (fun a kids hm => h a kids (List.mem_cons_of_mem _ hm))
    simp [Ready, containersUntimedL, containersUntimed, plainTimesL, plainTimes, inMsL, inMs, beginsOnceL, beginsOnce, convertibleL,
      convertible, untimedInL, untimedIn, h1, h2, h3, h4, h5, h6]

/-- Inside a leaf there are no elements. -/
theorem leaf_bare {a : Att} {kids : List (Node Att)} (hl : Leaf Att.kind a kids = true) (hf : kids.all (fits a.kind) = true) :
    ∀ b bs, .elem b bs ∉ kids := by
  intro b bs hm
  simp only [Leaf, Bool.and_eq_true, Bool.or_eq_true, decide_eq_true_eq, Bool.not_eq_true', List.any_eq_false] at hl
  have h1 := hl.2 _ hm
  have h2 := List.all_eq_true.mp hf _ hm
  rcases hl.1 with hk | hk <;> rw [hk] at h2 <;> simp_all [fits, isSpan]

mutual
theorem ready_of_tidy (m : Media) : ∀ (n : Node Att), shaped n = true → tidy n = true → flat n = true →
    (∀ l ∈ leaves Att.kind n, LeafOk m l.1) → Ready m [n]
  | .text s, _, _, _, _ => ⟨rfl, rfl, rfl, rfl, rfl⟩
  | .br, _, _, _, _ => ⟨rfl, rfl, rfl, rfl, rfl⟩
  | .elem a kids, hs, ht, hf, hl => by
    simp only [shaped, tidy, flat, Bool.and_eq_true, Bool.or_eq_true] at hs ht hf
    by_cases hleaf : Leaf Att.kind a kids = true
    · obtain ⟨⟨h1, h2, h3, h4, h5⟩, h6⟩ := bare_ready m kids (leaf_bare hleaf hs.1)
      have hvis : Visible (items kids) = true := by
        have hc := ht.1.1
        simp only [Leaf, Bool.and_eq_true, Bool.or_eq_true, decide_eq_true_eq, Bool.not_eq_true'] at hleaf
        rcases hleaf.1 with hk | hk <;> simpa [hasContent, hk, hleaf.2] using hc
      have hk : a.kind = .p ∨ a.kind = .span := by
        simp only [Leaf, Bool.and_eq_true, Bool.or_eq_true, decide_eq_true_eq] at hleaf
        exact hleaf.1
      obtain ⟨hd, b, e, hb, he, q1, q2, q3, q4, q5, q6⟩ := hl (a, items kids) (by rw [leaves, if_pos hleaf, if_pos hvis]; simp)
      simp only at hd hb he
      have he0 : e.delta ≠ 0 := by omega
      refine ⟨?_, ?_, ?_, ?_, ?_⟩
      · rcases hk with hk | hk <;> simp [containersUntimedL, containersUntimed, hk, h1]
      · simp [plainTimesL, plainTimes, hb, he, q3, he0, h2]
      · simp [inMsL, inMs, hb, he, hd, q1, q2, h3]
      · simp [beginsOnceL, beginsOnce, h6, h4]
      · simp [convertibleL, convertible, hb, he, q5, q6, h5]
        simpa using hf.1
    · rw [leaves, if_neg hleaf] at hl
      obtain ⟨h1, h2, h3, h4, h5⟩ := readyL_of_tidy m kids hs.2 ht.2 hf.2 hl
      have hu : a.beg = none ∧ a.fin = none ∧ a.dur = none := by
        rcases ht.1.2 with h | h
        · exact absurd h hleaf
        · simpa using h
      refine ⟨?_, ?_, ?_, ?_, ?_⟩
      · simp [containersUntimedL, containersUntimed, untimed, hu, h1]
      · simp [plainTimesL, plainTimes, hu, h2]
      · simp [inMsL, inMs, hu, h3]
      · simp [beginsOnceL, beginsOnce, hu, h4]
      · simp [convertibleL, convertible, hu, timeFits, h5]
        simpa using hf.1
theorem readyL_of_tidy (m : Media) : ∀ (ns : List (Node Att)), shapedL ns = true → tidyL ns = true → flatL ns = true →
    (∀ l ∈ leavesL Att.kind ns, LeafOk m l.1) → Ready m ns
  | [], _, _, _, _ => ⟨rfl, rfl, rfl, rfl, rfl⟩
  | k :: ks, hs, ht, hf, hl => by
    simp only [shapedL, tidyL, flatL, Bool.and_eq_true] at hs ht hf
    rw [leavesL] at hl
    have h1 := ready_of_tidy m k hs.1 ht.1 hf.1 (fun l hm => hl l (List.mem_append_left _ hm))
    have h2 := readyL_of_tidy m ks hs.2 ht.2 hf.2 (fun l hm => hl l (List.mem_append_right _ hm))
    simp only [Ready, containersUntimedL, plainTimesL, inMsL, beginsOnceL, convertibleL, Bool.and_true, Bool.and_eq_true] at h1 h2 ⊢
    exact ⟨⟨h1.1, h2.1⟩, ⟨h1.2.1, h2.2.1⟩, ⟨h1.2.2.1, h2.2.2.1⟩, ⟨h1.2.2.2.1, h2.2.2.2.1⟩, ⟨h1.2.2.2.2, h2.2.2.2.2⟩⟩
end

/-! ### Lemmas: the segments -/

/-- What a segment's content is like. -/
structure SegReady (m : Media) (n : Node Att) : Prop where
  body : SegBody n
  flat : flatL (contentOf n) = true
  leaves : ∀ l ∈ leavesL Att.kind (contentOf n), LeafOk m l.1

theorem forall₂_right {α β : Type} {R : α → β → Prop} {A : List α} {B : List β} (h : List.Forall₂ R A B) :
    ∀ b ∈ B, ∃ a ∈ A, R a b := by
  induction h with
  | nil => intro b hb; simp at hb
  | @cons a b A B hab _ ih =>
    intro x hx
    rw [List.mem_cons] at hx
    rcases hx with rfl | hx
    · exact ⟨a, List.mem_cons_self, hab⟩
    · obtain ⟨y, hy, hr⟩ := ih x hx
      exact ⟨y, List.mem_cons_of_mem _ hy, hr⟩

theorem segmentOf_ready {src : Source} {d : Seq.Doc} {hi : Int} (hg : src.Good d hi) (num : Nat) {wb : Option Int} {we : Int}
    (h0 : ∀ b, wb = some b → b % 1000 = 0) (hhi : we ≤ hi) (he : we % 1000 = 0) (m : Media) (hbase : src.base = m.base)
    (hz : m.base = .clock → (∃ b, wb = some b ∧ m.zero ≤ b) ∧ m.zero ≤ we) (hf : flat src.root = true) :
    ∀ sd, segmentOf src num ⟨wb, some we⟩ = some sd → SegReady m sd.body := by
  obtain ⟨x, kids, hx, hk, _, _, her⟩ := good_body hg.toSound
  have hsh : shaped (erase (.elem x kids)) = true := by rw [her]; exact hg.shaped
  intro sd hsd
  have hbody := (segmentOf_shown hg num h0 hhi he).1 sd hsd
  unfold segmentOf at hsd
  rw [validateDoc_eq, hx] at hsd
  simp only at hsd
  cases hseg : segment (src.env num ⟨wb, some we⟩) (.elem x kids) with
  | error err => rw [hseg] at hsd; simp at hsd
  | ok seg =>
    rw [hseg] at hsd
    simp only [Option.some.injEq] at hsd
    rw [← hsd] at hbody ⊢
    simp only at hbody ⊢
    refine ⟨hbody, segment_flat (by rw [her]; exact hf) hseg, ?_⟩
    have hns : (src.env num ⟨wb, some we⟩).base ≠ .smpte := by
      intro hc
      have hc : src.base = .smpte := hc
      rcases hg.base with hb | ⟨hb, _⟩ <;> rw [hb] at hc <;> simp at hc
    have hC := C23_segment_leaves_partial (src.env num ⟨wb, some we⟩) hg.rd hns src.avail hg.avail src.root hg.sane hg.shaped
      hg.unmixed hg.wellTimed (.elem x kids) (by rw [validateDoc_eq, hx]) seg hseg
    have hcont : leavesAtt seg = leavesL Att.kind (contentOf seg) := by
      obtain ⟨a, ha, hak, _⟩ := hbody.elem
      rw [ha]
      simp [leavesAtt, leaves, Leaf, hak, contentOf]
    intro l hl
    rw [← hcont] at hl
    obtain ⟨y, hy, _, _, hd, b, e, te, hb, hfe, hte, hbd, hed, _, _⟩ := forall₂_right hC l hl
    rw [List.mem_filter] at hy
    obtain ⟨f1, f2, f3⟩ := leaf_facts hg.avail hg.sane hg.shaped hg.wellTimed (by rw [hx]; exact hy.1)
    obtain ⟨f4, f5⟩ := f3 hg.inMs hg.availMs
    have ho := hy.2
    have hwin : (src.env num ⟨wb, some we⟩).win = ⟨wb, some we⟩ := rfl
    rw [hwin] at hte hbd ho
    simp only [Overlaps, cutBegin, cutEnd] at ho hbd hte
    have hcb : b.delta % 1000 = 0 ∧ 0 ≤ b.delta ∧ ∀ w, wb = some w → w ≤ b.delta := by
      cases hwb : wb with
      | none =>
        rw [hwb] at hbd
        simp only at hbd
        refine ⟨by unfold toMs at hbd; omega, by unfold toMs at hbd; omega, by simp⟩
      | some w =>
        rw [hwb] at hbd
        simp only at hbd
        have := h0 w hwb
        refine ⟨by unfold toMs at hbd; omega, by unfold toMs at hbd; omega, ?_⟩
        intro w' hw'
        injection hw' with hw'
        unfold toMs at hbd; omega
    have hce : e.delta % 1000 = 0 ∧ 0 < e.delta ∧ (∀ w, wb = some w → w ≤ we → w ≤ e.delta) := by
      cases hye : y.1.comp.e with
      | none =>
        rw [hye] at ho hte
        simp only [Option.some.injEq] at hte
        simp at ho
        unfold toMs at hed
        refine ⟨by omega, by omega, ?_⟩
        intro w _ hw; omega
      | some ye =>
        have g2 := f2 ye hye
        have g5 := f5 ye hye
        rw [hye] at ho hte
        simp only [Option.some.injEq] at hte
        simp only [Bool.and_eq_true, decide_eq_true_eq] at ho
        unfold toMs at hed
        refine ⟨by omega, by omega, ?_⟩
        intro w hw hle
        rw [hw] at ho
        simp only [decide_eq_true_eq] at ho
        omega
    refine ⟨hd, b, e, hb, hfe, hcb.1, hce.1, hcb.2.1, hce.2.1, ?_, ?_⟩
    · unfold timeFits
      cases hmb : m.base with
      | clock =>
        obtain ⟨⟨w, hw, hzw⟩, _⟩ := hz hmb
        have := hcb.2.2 w hw
        simp only [decide_eq_true_eq]; omega
      | media => rfl
      | smpte => exfalso; rw [← hbase] at hmb; exact hns hmb
    · unfold timeFits
      cases hmb : m.base with
      | clock =>
        obtain ⟨⟨w, hw, hzw⟩, hzwe⟩ := hz hmb
        simp only [decide_eq_true_eq]
        by_cases hle : w ≤ we
        · have := hce.2.2 w hw hle; omega
        · cases hye : y.1.comp.e with
          | none =>
            rw [hye] at hte
            simp only [Option.some.injEq] at hte
            unfold toMs at hed; omega
          | some ye =>
            have g5 := f5 ye hye
            rw [hye, hw] at ho
            rw [hye] at hte
            simp only [Option.some.injEq] at hte
            simp only [Bool.and_eq_true, decide_eq_true_eq] at ho
            unfold toMs at hed; omega
      | media => rfl
      | smpte => exfalso; rw [← hbase] at hmb; exact hns hmb

theorem leafOk_id {m : Media} {a : Att} : LeafOk m { a with id := none } ↔ LeafOk m a := Iff.rfl

theorem fold_ready {m : Media} : ∀ (ds : List SDoc) (st : List Name × SDoc), SegReady m st.2.body →
    (∀ d ∈ ds, SegReady m d.body) → SegReady m (ds.foldl mergeDoc st).2.body
  | [], _, h, _ => h
  | d :: ds, st, h, hd => by
    rw [List.foldl_cons]
    refine fold_ready ds _ ?_ (fun d' hd' => hd d' (List.mem_cons_of_mem _ hd'))
    have hb := fold_body [d] st h.body (by
      intro d' hd'
      rw [List.mem_singleton] at hd'
      subst hd'
      exact (hd d' List.mem_cons_self).body)
    rw [List.foldl_cons, List.foldl_nil] at hb
    have hdd := hd d List.mem_cons_self
    have hpl : plainL (contentOf (mergeDoc st d).2.body) = plainL (contentOf st.2.body) ++ plainL (contentOf d.body) := by
      exact mergeBody_plain _ _ _
    refine ⟨hb, ?_, ?_⟩
    · rw [← flatL_plain, hpl, flatL_append, flatL_plain, flatL_plain, h.flat, hdd.flat]; rfl
    · intro l hl
      have hm : ({ l.1 with id := none }, l.2) ∈ leavesL Att.kind (plainL (contentOf (mergeDoc st d).2.body)) := by
        rw [leavesL_plain]
        exact List.mem_map.mpr ⟨l, hl, rfl⟩
      rw [hpl, leavesL_append, List.mem_append, leavesL_plain, leavesL_plain, List.mem_map, List.mem_map] at hm
      rcases hm with ⟨l', hl', he⟩ | ⟨l', hl', he⟩
      · have := h.leaves l' hl'
        rw [← leafOk_id] at this ⊢
        simp only [Prod.mk.injEq] at he
        rw [← he.1]; exact this
      · have := hdd.leaves l' hl'
        rw [← leafOk_id] at this ⊢
        simp only [Prod.mk.injEq] at he
        rw [← he.1]; exact this

/-- What the conversion asks for of a spliced document with a div; one without has no content. -/
theorem ready_shape {m : Media} {n : Node Att} (h : SegReady m n) :
    (hasDiv n = true → shaped n = true ∧ plainTimes n = true ∧ containersUntimed n = true ∧ inMs n = true ∧ beginsOnce n = true ∧
      convertible m n = true) ∧
    (hasDiv n ≠ true → contentOf n = []) := by
  obtain ⟨a, ha, hk, hc⟩ := h.body.elem
  have hfit := h.body.fit
  simp only [Fit, Bool.and_eq_true] at hfit
  obtain ⟨h1, h2, h3, h4, h5⟩ := readyL_of_tidy m _ hfit.1.2 hfit.2 h.flat h.leaves
  constructor
  · intro hd
    have hne : contentOf n ≠ [] := by
      intro hn; rw [ha, hn] at hd; simp [hasDiv] at hd
    obtain ⟨u1, u2, u3⟩ := hc.resolve_left hne
    have hallD : (contentOf n).all (fitsD .body) = true := by
      rw [List.all_eq_true]
      intro k hkm
      have hf := List.all_eq_true.mp hfit.1.1 k hkm
      clear ha hne hkm
      cases k <;> simp [fits] at hf
      simp [fitsD, hf]
    have hroot : ∀ {P : Node Att → Prop}, P (.elem a (contentOf n)) → P n := by
      intro P hp; rw [ha]; exact hp
    exact ⟨hroot (P := fun n => shaped n = true) (by rw [shaped, hk, hfit.1.1, hfit.1.2]; rfl),
      hroot (P := fun n => plainTimes n = true) (by rw [plainTimes, u1, u2, h2]; rfl),
      hroot (P := fun n => containersUntimed n = true) (by rw [containersUntimed, h1]; simp [untimed, u1, u2, u3]),
      hroot (P := fun n => inMs n = true) (by rw [inMs, u1, u2, u3, h3]; rfl),
      hroot (P := fun n => beginsOnce n = true) (by rw [beginsOnce, u1, h4]; rfl),
      hroot (P := fun n => convertible m n = true) (by rw [convertible, hk, hallD, h5]; simp)⟩
  · intro hd
    generalize hcn : contentOf n = ks at *
    cases ks with
    | nil => rfl
    | cons k ks =>
      exfalso
      have hf := hfit.1.1
      simp only [List.all_cons, Bool.and_eq_true] at hf
      rw [ha] at hd
      cases k with
      | text s => have h1 := hf.1; simp [fits] at h1
      | br => have h1 := hf.1; simp [fits] at h1
      | elem b bs =>
        apply hd
        have h1 := hf.1
        simp only [fits, decide_eq_true_eq] at h1
        simp [hasDiv, h1]

/-- A spliced document is converted, and then shows at every media time what it shows itself. -/
theorem ready_converted {m : Media} (hrd : m.rd.Accurate) (hz0 : 0 ≤ m.zero) (hz : m.base = .clock → m.zero % 1000 = 0)
    {d : SDoc} (h : SegReady m d.body) :
    ∃ o, convertBody m d.body = .ok o ∧ ∀ u, 0 ≤ u → playedAt o u = shownBy (some d) (u + m.shift) := by
  obtain ⟨hyes, hno⟩ := ready_shape h
  have hshift : 0 ≤ m.shift := by unfold Media.shift; cases m.base <;> simp <;> exact hz0
  by_cases hd : hasDiv d.body = true
  · obtain ⟨g1, g2, g3, g4, g5, g6⟩ := hyes hd
    obtain ⟨out, hout⟩ := (C43_converts_iff m hrd d.body hd).mp g6
    refine ⟨some out, hout, ?_⟩
    intro u hu
    have hshow := C43_shown_alike_partial m hrd hz0 hz 0 d.body g1 g2 g3 g4 (fun _ => g5)
      _ (validateDoc_eq 0 d.body) out hout (u + m.shift) (by omega) (by omega)
    simp only [playedAt, Option.elim, shownBy, validateDoc_eq]
    rw [hshow]
    congr 1
    omega
  · refine ⟨none, by rw [convertBody, if_neg hd], ?_⟩
    intro u _
    have := h.body.shown (u + m.shift)
    rw [hno hd] at this
    simp only [playedAt, Option.elim, shownBy, validateDoc_eq]
    rw [this]; rfl

end Verif.Convert
