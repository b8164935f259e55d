import Verif.Doc.LinesAll
import Verif.Convert.LinesSpec

/-! Helper lemmas for lines after conversion. -/
namespace Verif.Convert

open Verif.Doc Verif.Time

/-! ### Leaves of a segment -/

/-- The times of a leaf's copy: computed times, cut to the window and written. -/
def Cut (v : Env) (a : Att) : Prop :=
  (a.kind = .p ∨ a.kind = .span) ∧ a.dur = none ∧ ∃ c b e, LeafFact c ∧ inSeg v.win c = true ∧
    a.beg = some b ∧ a.fin = some e ∧ stamp v (some (cutBegin v.win c)) = .ok b ∧ stamp v (cutEnd v.win c) = .ok e

mutual
theorem seg_cut {v : Env} : ∀ (n : Node Lab) (o : Option (Node Att)), segNode v n = .ok o → AllOk n →
    ∀ l ∈ leavesL Att.kind o.toList, Cut v l.1
  | .text s, o, h, _, l, hl => by
    simp only [segNode, Except.ok.injEq] at h
    subst h; simp [leavesL, leaves] at hl
  | .br, o, h, _, l, hl => by
    simp only [segNode, Except.ok.injEq] at h
    subst h; simp [leavesL, leaves] at hl
  | .elem x kids, o, h, hall, l, hl => by
    rcases segNode_elem h with ⟨hin, rfl⟩ | ⟨hin, a, ks, ha, hks, ⟨_, rfl⟩ | ⟨he, a', ha', rfl⟩⟩
    · simp [leavesL] at hl
    · simp [leavesL] at hl
    · simp only [Option.toList, leavesL, List.append_nil] at hl
      rw [leaves] at hl
      by_cases hleaf : Leaf Att.kind a' ks = true
      · rw [if_pos hleaf] at hl
        split at hl
        · rw [List.mem_singleton] at hl
          subst hl
          simp only [Leaf, Bool.and_eq_true, Bool.or_eq_true, decide_eq_true_eq, Bool.not_eq_true'] at hleaf
          have hkind := (leafTiming_kind ha').1
          rw [hkind] at hleaf
          have hkx := copyAtt_kind ha
          have hdur := copyAtt_dur ha (by rw [← hkx]; rcases hleaf.1 with hk | hk <;> rw [hk] <;> simp)
          unfold leafTiming at ha'
          rw [isTimedLeaf_eq hleaf.1, hleaf.2] at ha'
          simp only [Bool.not_false, if_true] at ha'
          obtain ⟨b, hb, ha'⟩ := bind_ok ha'
          obtain ⟨e, hee, ha'⟩ := bind_ok ha'
          simp only [pure, Except.pure, Except.ok.injEq] at ha'
          rw [trimBegin_eq] at hb
          rw [trimEnd_eq] at hee
          refine ⟨?_, ?_, x.comp, b, e, hall [] x kids .here, hin, ?_, ?_, hb, hee⟩
          · rw [← ha']; exact hleaf.1
          · rw [← ha']; exact hdur
          · rw [← ha']
          · rw [← ha']
        · simp at hl
      · rw [if_neg hleaf] at hl
        exact segL_cut kids ks hks (fun k hk => hall.kid hk) l hl
theorem segL_cut {v : Env} : ∀ (ns : List (Node Lab)) (out : List (Node Att)), segList v ns = .ok out → (∀ k ∈ ns, AllOk k) →
    ∀ l ∈ leavesL Att.kind out, Cut v l.1
  | [], out, h, _, l, hl => by
    simp only [segList, Except.ok.injEq] at h
    subst h; simp [leavesL] at hl
  | k :: ks, out, h, hall, l, hl => by
    obtain ⟨o, rest, ho, hr, rfl⟩ := segList_cons h
    rw [leavesL_append, List.mem_append] at hl
    rcases hl with hl | hl
    · exact seg_cut k o ho (hall k List.mem_cons_self) l hl
    · exact segL_cut ks rest hr (fun k' hk' => hall k' (List.mem_cons_of_mem _ hk')) l hl
end

/-- A leaf with both times, validated on its own. -/
theorem comp_leaf {a : Att} (hk : a.kind = .p ∨ a.kind = .span) {b e : TV} (hb : a.beg = some b) (he : a.fin = some e)
    (h0 : e.delta ≠ 0) : compOf 0 0 none a [] = ⟨b.delta, some e.delta⟩ := by
  have hown : ownEnd 0 0 none a = some e.delta := by
    unfold ownEnd preEnd baseEnd
    rw [he]
    have : eff (some e) = some e.delta := by simp only [eff]; rw [if_neg h0]
    rw [this]
    rcases hk with h6 | h6 <;> rw [h6] <;> simp
  have hnb : ¬ (a.kind = .body) := by rcases hk with h6 | h6 <;> rw [h6] <;> simp
  unfold compOf
  rw [hown, hb]
  simp only [postBegin, ite_self, hnb, false_and, if_false]
  simp only [eff]
  by_cases hz : b.delta = 0
  · simp [hz]
  · simp [hz]

/-- The times of a leaf: convertible, and in order as text when they are in order. -/
def LineLeaf (m : Media) (a : Att) : Prop :=
  (a.kind = .p ∨ a.kind = .span) ∧ LeafOk m a ∧ ∀ b e, a.beg = some b → a.fin = some e → b.delta < e.delta → badly a = false

theorem cut_line {v : Env} (hv : WinFact v) {wb : Option Int} {we : Int} (hwin : v.win = ⟨wb, some we⟩) {m : Media}
    (hbase : v.base = m.base) (hz : m.base = .clock → (∃ b, wb = some b ∧ m.zero ≤ b) ∧ m.zero ≤ we) {a : Att} (h : Cut v a) :
    LineLeaf m a := by
  obtain ⟨hk, hd, c, b, e, hc, hin, hb, he, hsb, hse⟩ := h
  have hin' := hin
  rw [inSeg_eq] at hin'
  have hwe := hv.ms we (.inr (by rw [hwin]))
  have h0 : ∀ w, wb = some w → w % 1000 = 0 := fun w hw => hv.ms w (.inl (by rw [hwin]; exact hw))
  have f1 := hc.nonneg
  have f2 := hc.pos
  have f4 := hc.msb
  have f5 := hc.mse
  have hcb0 : 0 ≤ cutBegin v.win c := by
    unfold cutBegin
    cases hwb : v.win.b with
    | none => exact f1
    | some w => simp only; omega
  have hce0 : ∀ te, cutEnd v.win c = some te → 0 ≤ te := by
    intro te hte
    unfold cutEnd at hte
    unfold Overlaps at hin'
    rw [hwin] at hte hin'
    simp only [Bool.and_eq_true, decide_eq_true_eq] at hin' hte
    cases hce : c.e with
    | none => rw [hce] at hte; simp at hte; omega
    | some y => have := f2 y hce; rw [hce] at hte; simp at hte; omega
  obtain ⟨tb, htb, hbd, _⟩ := stamp_spec hv.rd hv.base hsb (by intro t ht; injection ht with ht; rw [← ht]; exact hcb0)
  obtain ⟨te, hte, hed, _⟩ := stamp_spec hv.rd hv.base hse hce0
  injection htb with htb
  rw [← htb] at hbd
  have ho := hin'
  rw [hwin] at hte hbd ho
  simp only [Overlaps, cutBegin, cutEnd] at ho hbd hte
  have hcb : b.delta % 1000 = 0 ∧ 0 ≤ b.delta ∧ ∀ w, wb = some w → w ≤ b.delta := by
    cases hwb : wb with
    | none =>
      rw [hwb] at hbd
      simp only at hbd
      refine ⟨by unfold toMs at hbd; omega, by unfold toMs at hbd; omega, by simp⟩
    | some w =>
      rw [hwb] at hbd
      simp only at hbd
      have := h0 w hwb
      refine ⟨by unfold toMs at hbd; omega, by unfold toMs at hbd; omega, ?_⟩
      intro w' hw'
      injection hw' with hw'
      unfold toMs at hbd; omega
  have hce : e.delta % 1000 = 0 ∧ 0 < e.delta ∧ (∀ w, wb = some w → w ≤ we → w ≤ e.delta) := by
    cases hye : c.e with
    | none =>
      rw [hye] at ho hte
      simp only [Option.some.injEq] at hte
      simp at ho
      unfold toMs at hed
      refine ⟨by omega, by omega, ?_⟩
      intro w _ hw; omega
    | some ye =>
      have g2 := f2 ye hye
      have g5 := f5 ye hye
      rw [hye] at ho hte
      simp only [Option.some.injEq] at hte
      simp only [Bool.and_eq_true, decide_eq_true_eq] at ho
      unfold toMs at hed
      refine ⟨by omega, by omega, ?_⟩
      intro w hw hle
      rw [hw] at ho
      simp only [decide_eq_true_eq] at ho
      omega
  have hns : m.base ≠ .smpte := by rw [← hbase]; exact hv.base
  refine ⟨hk, ⟨hd, b, e, hb, he, hcb.1, hce.1, hcb.2.1, hce.2.1, ?_, ?_⟩, ?_⟩
  · unfold timeFits
    cases hmb : m.base with
    | clock =>
      obtain ⟨⟨w, hw, hzw⟩, _⟩ := hz hmb
      have := hcb.2.2 w hw
      simp only [decide_eq_true_eq]; omega
    | media => rfl
    | smpte => exact absurd hmb hns
  · unfold timeFits
    cases hmb : m.base with
    | clock =>
      obtain ⟨⟨w, hw, hzw⟩, hzwe⟩ := hz hmb
      simp only [decide_eq_true_eq]
      by_cases hle : w ≤ we
      · have := hce.2.2 w hw hle; omega
      · cases hye : c.e with
        | none =>
          rw [hye] at hte
          simp only [Option.some.injEq] at hte
          unfold toMs at hed; omega
        | some ye =>
          have g5 := f5 ye hye
          rw [hye, hw] at ho
          rw [hye] at hte
          simp only [Option.some.injEq] at hte
          simp only [Bool.and_eq_true, decide_eq_true_eq] at ho
          unfold toMs at hed; omega
    | media => rfl
    | smpte => exact absurd hmb hns
  · intro b' e' hb' he' hlt
    rw [hb] at hb'; rw [he] at he'
    injection hb' with hb'; injection he' with he'
    subst hb'; subst he'
    have hcopy : leafTiming v c a [] = .ok a := by
      unfold leafTiming
      rw [isTimedLeaf_eq hk]
      simp only [List.any_nil, Bool.not_false, if_true, trimBegin_eq, trimEnd_eq, hsb, hse, bind, Except.bind, pure, Except.pure,
        Except.ok.injEq]
      cases a
      simp_all
    refine (leaf_copy hv hc hin hk rfl hcopy b.delta).2.2 ?_
    rw [comp_leaf hk hb he (by omega)]
    unfold Comp.at
    simp only [Bool.and_eq_true, decide_eq_true_eq]
    omega

/-! ### Paragraphs of a segment -/

theorem segList_isSpan {v : Env} : ∀ {kids : List (Node Lab)} {ks : List (Node Att)}, segList v kids = .ok ks →
    (eraseL kids).any (isSpan Att.kind) = false → ks.any (isSpan Att.kind) = false := by
  intro kids
  induction kids with
  | nil => intro ks h _; simp only [segList, Except.ok.injEq] at h; rw [← h]; rfl
  | cons k kids ih =>
    intro ks h hf
    obtain ⟨o, rest, ho, hr, rfl⟩ := segList_cons h
    simp only [eraseL, List.any_cons, Bool.or_eq_false_iff] at hf
    rw [List.any_append, ih hr hf.2, Bool.or_false]
    cases o with
    | none => rfl
    | some m =>
      rcases segNode_kind ho with ⟨s, rfl, rfl⟩ | ⟨rfl, rfl⟩ | ⟨x, kids', a, ks', rfl, rfl, hk⟩
      · rfl
      · rfl
      · have h1 := hf.1
        simp only [erase, isSpan] at h1
        simp only [Option.toList, List.any_cons, List.any_nil, Bool.or_false, isSpan, hk]
        exact h1

theorem linedL_append (exact : Bool) (a b : List (Node Att)) : linedL exact (a ++ b) = (linedL exact a && linedL exact b) := by
  induction a with
  | nil => rfl
  | cons k ks ih => simp [linedL, ih, Bool.and_assoc]

mutual
theorem seg_lined {v : Env} (exact : Bool) : ∀ (n : Node Lab) (o : Option (Node Att)), segNode v n = .ok o →
    lined exact (erase n) = true → linedL exact o.toList = true
  | .text s, o, h, hs => by
    simp only [segNode, Except.ok.injEq] at h
    subst h; rfl
  | .br, o, h, hs => by
    simp only [segNode, Except.ok.injEq] at h
    subst h; rfl
  | .elem x kids, o, h, hs => by
    simp only [erase, lined, Bool.and_eq_true] at hs
    rcases segNode_elem h with ⟨hin, rfl⟩ | ⟨hin, a, ks, ha, hks, ⟨_, rfl⟩ | ⟨he, a', ha', rfl⟩⟩
    · rfl
    · rfl
    · have ih := segL_lined exact kids ks hks hs.2
      have hkind := (leafTiming_kind ha').1
      rw [copyAtt_kind ha] at hkind
      have hit := segList_items hks
      have hsp := segList_isSpan hks
      have h1 := hs.1
      simp only [Option.toList, linedL, lined, Bool.and_true, Bool.and_eq_true, hkind]
      refine ⟨?_, ih⟩
      cases hk : x.att.kind with
      | body => rfl
      | div => rfl
      | p =>
        rw [hk] at h1
        simp only [Bool.or_eq_true, Bool.not_eq_true', items_eraseL] at h1
        simp only [Bool.or_eq_true, Bool.not_eq_true', hit]
        exact h1.imp hsp id
      | span =>
        rw [hk] at h1
        simp only [Bool.or_eq_true, Bool.not_eq_true', Bool.and_eq_true, items_eraseL] at h1
        simp only [Bool.or_eq_true, Bool.not_eq_true', Bool.and_eq_true, hit]
        exact h1.imp id (fun h => ⟨hsp h.1, h.2⟩)
theorem segL_lined {v : Env} (exact : Bool) : ∀ (ns : List (Node Lab)) (out : List (Node Att)), segList v ns = .ok out →
    linedL exact (eraseL ns) = true → linedL exact out = true
  | [], out, h, _ => by
    simp only [segList, Except.ok.injEq] at h
    subst h; rfl
  | k :: ks, out, h, hs => by
    obtain ⟨o, rest, ho, hr, rfl⟩ := segList_cons h
    simp only [eraseL, linedL, Bool.and_eq_true] at hs
    rw [linedL_append, seg_lined exact k o ho hs.1, segL_lined exact ks rest hr hs.2]
    rfl
end

theorem segment_lined {v : Env} (exact : Bool) {x : Lab} {kids : List (Node Lab)} (hf : lined exact (erase (.elem x kids)) = true)
    {seg : Node Att} (h : segment v (.elem x kids) = .ok seg) : linedL exact (contentOf seg) = true := by
  obtain ⟨a, ks, hseg, hk, hcase⟩ := segment_cases h
  have h1 := seg_lined exact _ _ hseg hf
  simp only [Option.toList, linedL, Bool.and_true, lined, Bool.and_eq_true] at h1
  rcases hcase with ⟨_, rfl⟩ | ⟨rfl, b, e, _, _, rfl⟩
  · exact h1.2
  · rfl

theorem segment_cut {v : Env} {x : Lab} {kids : List (Node Lab)} (hx : x.att.kind = .body) (hall : AllOk (.elem x kids))
    {seg : Node Att} (h : segment v (.elem x kids) = .ok seg) : ∀ l ∈ leavesL Att.kind (contentOf seg), Cut v l.1 := by
  obtain ⟨a, ks, hseg, hk, hcase⟩ := segment_cases h
  have h1 := seg_cut _ _ hseg hall
  have hleaf : Leaf Att.kind a ks = false := by simp [Leaf, hk, hx]
  simp only [Option.toList, leavesL, List.append_nil, leaves, hleaf, Bool.false_eq_true, if_false] at h1
  rcases hcase with ⟨_, rfl⟩ | ⟨rfl, b, e, _, _, rfl⟩
  · exact h1
  · intro l hl; simp [contentOf, leavesL] at hl

/-- What a segment's content is like. -/
structure SegLines (exact : Bool) (m : Media) (n : Node Att) : Prop where
  body : SegBody n
  flat : flatL (contentOf n) = true
  leaves : ∀ l ∈ leavesL Att.kind (contentOf n), LineLeaf m l.1
  lined : linedL exact (contentOf n) = true

theorem segmentOf_lined {src : Source} {d : Seq.Doc} {hi : Int} (hg : src.Sound d hi) (exact : Bool)
    (hl : lined exact src.root = true) (hh : hi < 100 * 3600000000) (num : Nat) {wb : Option Int} {we : Int}
    (h0 : ∀ b, wb = some b → b % 1000 = 0) (hhi : we ≤ hi) (he : we % 1000 = 0) (m : Media) (hbase : src.base = m.base)
    (hz : m.base = .clock → (∃ b, wb = some b ∧ m.zero ≤ b) ∧ m.zero ≤ we) (hf : Convert.flat src.root = true) :
    ∀ sd, segmentOf src num ⟨wb, some we⟩ = some sd → SegLines exact m sd.body := by
  obtain ⟨x, kids, hx, hk, _, _, her⟩ := good_body hg
  have hall := allOk_times hg.avail hg.availMs hg.sane hg.inMs
  rw [hx] at hall
  intro sd hsd
  have hbody := (segmentOf_lines hg exact hl hh num h0 hhi he).1 sd hsd
  unfold segmentOf at hsd
  rw [validateDoc_eq, hx] at hsd
  simp only at hsd
  cases hseg : segment (src.env num ⟨wb, some we⟩) (.elem x kids) with
  | error err => rw [hseg] at hsd; simp at hsd
  | ok seg =>
    rw [hseg] at hsd
    simp only [Option.some.injEq] at hsd
    rw [← hsd] at hbody ⊢
    simp only at hbody ⊢
    have hns : (src.env num ⟨wb, some we⟩).base ≠ .smpte := by
      intro hc
      have hc : src.base = .smpte := hc
      rcases hg.base with hb | ⟨hb, _⟩ <;> rw [hb] at hc <;> simp at hc
    have hv : WinFact (src.env num ⟨wb, some we⟩) := ⟨hg.rd, hns, by
        intro t ht
        rcases ht with ht | ht
        · exact h0 t ht
        · simp only [Source.env, Option.some.injEq] at ht; omega, .inr ⟨we, rfl, by omega⟩⟩
    exact ⟨hbody, segment_flat (by rw [her]; exact hf) hseg,
      fun l hl => cut_line hv rfl hbase hz (segment_cut hk hall hseg l hl),
      segment_lined exact (by rw [her]; exact hl) hseg⟩

/-! ### Splicing -/

theorem items_plainL : ∀ (ns : List (Node Att)), items (plainL ns) = items ns
  | [] => rfl
  | .text s :: ns => by rw [plainL, plain, items, items, items_plainL ns]
  | .br :: ns => by rw [plainL, plain, items, items, items_plainL ns]
  | .elem a kids :: ns => by rw [plainL, plain, items, items, items_plainL ns]

theorem isSpan_plainL : ∀ (ns : List (Node Att)), (plainL ns).any (isSpan Att.kind) = ns.any (isSpan Att.kind)
  | [] => rfl
  | .text s :: ns => by rw [plainL, plain, List.any_cons, List.any_cons, isSpan_plainL ns]
  | .br :: ns => by rw [plainL, plain, List.any_cons, List.any_cons, isSpan_plainL ns]
  | .elem a kids :: ns => by rw [plainL, plain, List.any_cons, List.any_cons, isSpan_plainL ns]; rfl

mutual
theorem lined_plain (exact : Bool) : ∀ (n : Node Att), lined exact (plain n) = lined exact n
  | .text s => rfl
  | .br => rfl
  | .elem a kids => by rw [plain, lined, lined, linedL_plain exact kids, items_plainL, isSpan_plainL]
theorem linedL_plain (exact : Bool) : ∀ (ns : List (Node Att)), linedL exact (plainL ns) = linedL exact ns
  | [] => rfl
  | k :: ks => by rw [plainL, linedL, linedL, lined_plain exact k, linedL_plain exact ks]
end

theorem lineLeaf_id {m : Media} {a : Att} : LineLeaf m { a with id := none } ↔ LineLeaf m a := Iff.rfl

theorem fold_lined {exact : Bool} {m : Media} : ∀ (ds : List SDoc) (st : List Name × SDoc), SegLines exact m st.2.body →
    (∀ d ∈ ds, SegLines exact m d.body) → SegLines exact m (ds.foldl mergeDoc st).2.body
  | [], _, h, _ => h
  | d :: ds, st, h, hd => by
    rw [List.foldl_cons]
    refine fold_lined ds _ ?_ (fun d' hd' => hd d' (List.mem_cons_of_mem _ hd'))
    have hb := fold_body [d] st h.body (by
      intro d' hd'
      rw [List.mem_singleton] at hd'
      subst hd'
      exact (hd d' List.mem_cons_self).body)
    rw [List.foldl_cons, List.foldl_nil] at hb
    have hdd := hd d List.mem_cons_self
    have hpl : plainL (contentOf (mergeDoc st d).2.body) = plainL (contentOf st.2.body) ++ plainL (contentOf d.body) := by
      exact mergeBody_plain _ _ _
    refine ⟨hb, ?_, ?_, ?_⟩
    · rw [← flatL_plain, hpl, flatL_append, flatL_plain, flatL_plain, h.flat, hdd.flat]; rfl
    · intro l hl
      have hm : ({ l.1 with id := none }, l.2) ∈ leavesL Att.kind (plainL (contentOf (mergeDoc st d).2.body)) := by
        rw [leavesL_plain]
        exact List.mem_map.mpr ⟨l, hl, rfl⟩
      rw [hpl, leavesL_append, List.mem_append, leavesL_plain, leavesL_plain, List.mem_map, List.mem_map] at hm
      rcases hm with ⟨l', hl', he⟩ | ⟨l', hl', he⟩
      · have := h.leaves l' hl'
        rw [← lineLeaf_id] at this ⊢
        simp only [Prod.mk.injEq] at he
        rw [← he.1]; exact this
      · have := hdd.leaves l' hl'
        rw [← lineLeaf_id] at this ⊢
        simp only [Prod.mk.injEq] at he
        rw [← he.1]; exact this
    · rw [← linedL_plain, hpl, linedL_append, linedL_plain, linedL_plain, h.lined, hdd.lined]; rfl

/-! ### Conversion -/

theorem readWrittenL_bare {u : Int} {ks : List (Node Att)} (h : ∀ x kk, Node.elem x kk ∉ ks) : readWrittenL u ks = items ks := by
  induction ks with
  | nil => rfl
  | cons k ks ih =>
    have ih := ih (fun x kk hm => h x kk (List.mem_cons_of_mem _ hm))
    cases k with
    | text s => simp [readWrittenL, readWritten, items, ih]
    | br => simp [readWrittenL, readWritten, items, ih]
    | elem x kk => exact absurd List.mem_cons_self (h x kk)

theorem convL_bare {m : Media} : ∀ {ks ks' : List (Node Att)}, (∀ x kk, Node.elem x kk ∉ ks) → convL m ks = .ok ks' → ks' = ks := by
  intro ks
  induction ks with
  | nil => intro ks' _ h; simp only [convL, Except.ok.injEq] at h; exact h.symm
  | cons k ks ih =>
    intro ks' hne h
    obtain ⟨k', kk, hk, hks, rfl⟩ := convL_cons h
    rw [ih (fun x kk hm => hne x kk (List.mem_cons_of_mem _ hm)) hks]
    cases k with
    | text s => simp only [conv, Except.ok.injEq] at hk; rw [hk]
    | br => simp only [conv, Except.ok.injEq] at hk; rw [hk]
    | elem x xs => exact absurd List.mem_cons_self (hne x xs)

/-- A converted leaf is on when the leaf is active at the time the media time stands for. -/
theorem leaf_runs {m : Media} (hrd : m.rd.Accurate) (hz : m.base = .clock → m.zero % 1000 = 0) {a a' : Att} (h : LineLeaf m a)
    (hc : convAtt m a = .ok a') (u : Int) : runs u a' = (compOf 0 0 none a []).at (u + m.shift) := by
  obtain ⟨hk, ⟨hd, b, e, hb, he, h1, h2, h3, h4, _, _⟩, _⟩ := h
  obtain ⟨hb', he'⟩ := convAtt_times hrd hc (.inl hk) (by simp [attMs, hb, he, hd, h1, h2]) hz
  rw [comp_leaf hk hb he (by omega)]
  rw [hb] at hb'
  rw [he] at he'
  unfold runs begun Comp.at
  rw [hb']
  cases hf : a'.fin with
  | none => rw [hf] at he'; simp at he'
  | some v =>
    rw [hf] at he'
    simp only [Option.map_some, Option.some.injEq] at he'
    simp only [Option.map_some, Option.getD_some, Option.all_some]
    rw [he', Bool.eq_iff_iff]
    simp only [Bool.and_eq_true, decide_eq_true_eq]
    omega

/-- A converted container has no times. -/
theorem untimed_runs {m : Media} {a a' : Att} (hc : convAtt m a = .ok a') (hb : a.beg = none) (he : a.fin = none) (hd : a.dur = none)
    {u : Int} (hu : 0 ≤ u) : runs u a' = true ∧ begun a' = 0 := by
  obtain ⟨_, _, h1, h2⟩ := convAtt_untimed hc (by simp [untimed, hb, he, hd])
  unfold runs begun
  rw [h1, h2]
  simpa using hu

/-- A span of a segment. -/
theorem span_leaf {m : Media} {a : Att} {kk : List (Node Att)} (hk : a.kind = .span) (hf : kk.all (fitsD .span) = true)
    (ht : hasContent a.kind kk = true) (hl : ∀ l ∈ leaves Att.kind (.elem a kk), LineLeaf m l.1) :
    (∀ x xs, Node.elem x xs ∉ kk) ∧ LineLeaf m a := by
  have hne : ∀ x xs, Node.elem x xs ∉ kk := by
    intro x xs hm
    have := List.all_eq_true.mp hf _ hm
    simp [fitsD] at this
  have hns : kk.any (isSpan Att.kind) = false := by
    rw [List.any_eq_false]
    intro k hkm
    cases k with
    | text s => simp [isSpan]
    | br => simp [isSpan]
    | elem x xs => exact absurd hkm (hne x xs)
  have hleaf : Leaf Att.kind a kk = true := by simp [Leaf, hk, hns]
  have hvis : Visible (items kk) = true := by simpa [hasContent, hk, hns] using ht
  exact ⟨hne, hl (a, items kk) (by rw [leaves, if_pos hleaf, if_pos hvis]; simp)⟩

/-- The content of a converted paragraph. -/
theorem read_conv {m : Media} (hrd : m.rd.Accurate) (hz : m.base = .clock → m.zero % 1000 = 0) (u : Int) :
    ∀ (kids ks' : List (Node Att)), convL m kids = .ok ks' → kids.all (fitsD .p) = true → tidyL kids = true → flatL kids = true →
    (∀ l ∈ leavesL Att.kind kids, LineLeaf m l.1) →
    readWrittenL u ks' = readAtL (u + m.shift) (timesL 0 0 none kids) ∧
    ∀ y ys, Node.elem y ys ∈ timesL 0 0 none kids → y.comp.at (u + m.shift) = true → badly y.att = false ∧ 0 ≤ y.comp.b := by
  intro kids
  induction kids with
  | nil =>
    intro ks' h _ _ _ _
    simp only [convL, Except.ok.injEq] at h
    subst h
    exact ⟨rfl, by intro y ys hy; simp [timesL] at hy⟩
  | cons k kids ih =>
    intro ks' h hf ht hfl hl
    obtain ⟨k', kk, hk, hks, rfl⟩ := convL_cons h
    simp only [List.all_cons, tidyL, flatL, Bool.and_eq_true] at hf ht hfl
    rw [leavesL] at hl
    obtain ⟨ih1, ih2⟩ := ih kk hks hf.2 ht.2 hfl.2 (fun l hm => hl l (List.mem_append_right _ hm))
    simp only [readWrittenL, timesL, readAtL, ih1]
    cases k with
    | text s =>
      simp only [conv, Except.ok.injEq] at hk
      subst hk
      refine ⟨rfl, ?_⟩
      intro y ys hy
      rcases List.mem_cons.mp hy with hy | hy
      · simp [times] at hy
      · exact ih2 y ys hy
    | br =>
      simp only [conv, Except.ok.injEq] at hk
      subst hk
      refine ⟨rfl, ?_⟩
      intro y ys hy
      rcases List.mem_cons.mp hy with hy | hy
      · simp [times] at hy
      · exact ih2 y ys hy
    | elem a kk0 =>
      obtain ⟨a', xs, hxs, ha', _, rfl⟩ := conv_elem hk
      have hka : a.kind = .span := by simpa [fitsD] using hf.1
      have ht1 := ht.1
      have hfl1 := hfl.1
      simp only [tidy, flat, Bool.and_eq_true] at ht1 hfl1
      rw [hka] at hfl1
      obtain ⟨hne, hline⟩ := span_leaf hka hfl1.1 ht1.1.1 (fun l hm => hl l (List.mem_append_left _ hm))
      obtain ⟨ks2, htimes, hitems, hne2⟩ := times_noElem (a := a) hne
      rw [htimes]
      refine ⟨?_, ?_⟩
      · congr 1
        rw [readWritten, readAt, leaf_runs hrd hz hline ha' u, convL_bare hne hxs, readWrittenL_bare hne, readAtL_noElem hne2, hitems]
      · intro y ys hy hat
        rcases List.mem_cons.mp hy with hy | hy
        · injection hy with hy _
          subst hy
          simp only at hat ⊢
          obtain ⟨hk, ⟨hd, b, e, hb, he, h1, h2, h3, h4, _, _⟩, hord⟩ := hline
          rw [comp_leaf hk hb he (by omega)] at hat ⊢
          unfold Comp.at at hat
          simp only [Bool.and_eq_true, decide_eq_true_eq] at hat
          exact ⟨hord b e hb he (by omega), h3⟩
        · exact ih2 y ys hy hat

mutual
/-- What is read of converted content. -/
theorem lines_conv {exact : Bool} {m : Media} (hrd : m.rd.Accurate) (hz : m.base = .clock → m.zero % 1000 = 0) {u : Int} (hu : 0 ≤ u) :
    ∀ (n n' : Node Att), conv m n = .ok n' → noSpan n = true → shaped n = true → tidy n = true → flat n = true → lined exact n = true →
    (∀ l ∈ leaves Att.kind n, LineLeaf m l.1) → linesWritten u n' = linesAt (u + m.shift) (times 0 0 none n)
  | .text s, n', h, _, _, _, _, _, _ => by
    simp only [conv, Except.ok.injEq] at h
    subst h; rfl
  | .br, n', h, _, _, _, _, _, _ => by
    simp only [conv, Except.ok.injEq] at h
    subst h; rfl
  | .elem a kids, n', h, hns, hs, ht, hf, hli, hl => by
    obtain ⟨a', ks', hks, ha', _, rfl⟩ := conv_elem h
    have hkind := (convAtt_ok ha').1
    simp only [shaped, tidy, flat, lined, Bool.and_eq_true, Bool.or_eq_true] at hs ht hf hli
    by_cases hp : a.kind = .p
    · rw [linesWritten, if_pos (by rw [hkind]; exact hp)]
      by_cases hsp : kids.any (isSpan Att.kind) = true
      · -- lines in spans
        have hleaf : ¬ Leaf Att.kind a kids = true := by simp [Leaf, hsp]
        have hut : a.beg = none ∧ a.fin = none ∧ a.dur = none := by
          rcases ht.1.2 with h | h
          · exact absurd h hleaf
          · simpa using h
        rw [leaves, if_neg hleaf] at hl
        rw [hp] at hf
        obtain ⟨hread, hgood⟩ := read_conv hrd hz u kids ks' hks hf.1 ht.2 hf.2 hl
        obtain ⟨hr, hb⟩ := untimed_runs ha' hut.1 hut.2.1 hut.2.2 hu
        have hnw : Words (items kids) = false := by
          have := hli.1
          rw [hp] at this
          simpa [hsp] using this
        rw [times_untimed hut.1 hut.2.1 hut.2.2, linesAt, if_pos hp, readWritten, if_pos hr, hb, Int.sub_zero, hread, readAt]
        by_cases hat : (compOf 0 0 none a (timedKids (timesL 0 0 none kids))).at (u + m.shift) = true
        · rw [if_pos hat]
        · rw [if_neg hat]
          have : Words (readAtL (u + m.shift) (timesL 0 0 none kids)) = false := by
            rw [words_filter]
            by_contra hc
            rw [words_filter, ← items_timesL 0 0 none kids] at hnw
            obtain ⟨y, ys, hm, hya⟩ := active_kid hnw hc
            obtain ⟨g1, g2⟩ := hgood y ys hm hya
            exact hat (hull_at hut.1 hut.2.1 hut.2.2 (mem_timedKids.mpr ⟨y, ⟨ys, hm, g1⟩, rfl⟩) g2 hya)
          rw [List.filter_cons_of_neg (by simp [this]), List.filter_cons_of_neg (by simp [Words])]
      · -- text of its own
        have hleaf : Leaf Att.kind a kids = true := by simp [Leaf, hp, hsp]
        have hne := leaf_bare hleaf hs.1
        have hvis : Visible (items kids) = true := by
          have hc := ht.1.1
          simpa [hasContent, hp, hsp] using hc
        have hline := hl (a, items kids) (by rw [leaves, if_pos hleaf, if_pos hvis]; simp)
        obtain ⟨ks2, htimes, hitems, hne2⟩ := times_noElem (a := a) hne
        rw [htimes, linesAt, if_pos hp, readWritten, readAt, leaf_runs hrd hz hline ha' u, convL_bare hne hks, readWrittenL_bare hne,
          readAtL_noElem hne2, hitems]
    · have hka : a.kind = .body ∨ a.kind = .div := by
        simp only [noSpan, decide_eq_true_eq] at hns
        cases hkd : a.kind <;> simp_all
      have hleaf : ¬ Leaf Att.kind a kids = true := by rcases hka with h | h <;> simp [Leaf, h]
      have hut : a.beg = none ∧ a.fin = none ∧ a.dur = none := by
        rcases ht.1.2 with h | h
        · exact absurd h hleaf
        · simpa using h
      rw [leaves, if_neg hleaf] at hl
      obtain ⟨hr, hb⟩ := untimed_runs ha' hut.1 hut.2.1 hut.2.2 hu
      have hns' : kids.all noSpan = true := by
        have hs1 := hs.1
        rw [List.all_eq_true] at hs1 ⊢
        intro k hkm
        have := hs1 k hkm
        cases k with
        | text s => rfl
        | br => rfl
        | elem b bs =>
          simp only [noSpan, decide_eq_true_eq]
          intro hb
          rcases hka with hkd | hkd <;> rw [hkd] at this <;> simp [fits, hb] at this
      rw [linesWritten, if_neg (by rw [hkind]; exact hp), if_pos hr, hb, Int.sub_zero, times_untimed hut.1 hut.2.1 hut.2.2, linesAt, if_neg hp]
      exact linesL_conv (exact := exact) hrd hz hu kids ks' hks hns' hs.2 ht.2 hf.2 hli.2 hl
theorem linesL_conv {exact : Bool} {m : Media} (hrd : m.rd.Accurate) (hz : m.base = .clock → m.zero % 1000 = 0) {u : Int} (hu : 0 ≤ u) :
    ∀ (ns ns' : List (Node Att)), convL m ns = .ok ns' → ns.all noSpan = true → shapedL ns = true → tidyL ns = true → flatL ns = true →
    linedL exact ns = true → (∀ l ∈ leavesL Att.kind ns, LineLeaf m l.1) →
    linesWrittenL u ns' = linesAtL (u + m.shift) (timesL 0 0 none ns)
  | [], ns', h, _, _, _, _, _, _ => by
    simp only [convL, Except.ok.injEq] at h
    subst h; rfl
  | k :: ks, ns', h, hns, hs, ht, hf, hli, hl => by
    obtain ⟨k', kk, hk, hks, rfl⟩ := convL_cons h
    simp only [List.all_cons, shapedL, tidyL, flatL, linedL, Bool.and_eq_true] at hns hs ht hf hli
    rw [leavesL] at hl
    rw [linesWrittenL, timesL, linesAtL,
      lines_conv (exact := exact) hrd hz hu k k' hk hns.1 hs.1 ht.1 hf.1 hli.1 (fun l hm => hl l (List.mem_append_left _ hm)),
      linesL_conv (exact := exact) hrd hz hu ks kk hks hns.2 hs.2 ht.2 hf.2 hli.2 (fun l hm => hl l (List.mem_append_right _ hm))]
end

/-- A spliced document is converted, and then reads at every media time as it does itself. -/
theorem lined_converted {exact : Bool} {m : Media} (hrd : m.rd.Accurate) (hz0 : 0 ≤ m.zero) (hz : m.base = .clock → m.zero % 1000 = 0)
    {d : SDoc} (h : SegLines exact m d.body) :
    ∃ o, convertBody m d.body = .ok o ∧ ∀ u, 0 ≤ u → linesPlayed o u = linesBy (some d) (u + m.shift) := by
  obtain ⟨o, ho, _⟩ := ready_converted hrd hz0 hz ⟨h.body, h.flat, fun l hl => (h.leaves l hl).2.1⟩
  refine ⟨o, ho, ?_⟩
  intro u hu
  obtain ⟨a, ha, hk, hc⟩ := h.body.elem
  have hfit := h.body.fit
  simp only [Fit, Bool.and_eq_true] at hfit
  have hlines : linesBy (some d) (u + m.shift) = linesContent (contentOf d.body) (u + m.shift) := by
    simp only [linesBy, validateDoc_eq]
    exact h.body.lines _
  rw [hlines]
  have hkids : ∀ k ∈ contentOf d.body, ∃ b bs, k = .elem b bs ∧ b.kind = .div := by
    intro k hkm
    have hf := List.all_eq_true.mp hfit.1.1 k hkm
    clear * - hf
    cases k with
    | text s => simp [fits] at hf
    | br => simp [fits] at hf
    | elem b bs => exact ⟨b, bs, rfl, by simpa [fits] using hf⟩
  unfold convertBody at ho
  by_cases hd : hasDiv d.body = true
  · rw [if_pos hd] at ho
    have hne : contentOf d.body ≠ [] := by
      intro hn; rw [ha, hn] at hd; simp [hasDiv] at hd
    obtain ⟨u1, u2, u3⟩ := hc.resolve_left hne
    cases hcv : conv m d.body with
    | error e => rw [hcv] at ho; simp [Except.map] at ho
    | ok n' =>
      rw [hcv] at ho
      simp only [Except.map, Except.ok.injEq] at ho
      subst ho
      rw [ha] at hcv
      obtain ⟨a', ks', hks, ha', _, rfl⟩ := conv_elem hcv
      have hkind := (convAtt_ok ha').1
      obtain ⟨hr, hb⟩ := untimed_runs ha' u1 u2 u3 hu
      simp only [linesPlayed, Option.elim]
      rw [linesWritten, if_neg (by rw [hkind, hk]; simp), if_pos hr, hb, Int.sub_zero]
      refine linesL_conv (exact := exact) hrd hz hu _ _ hks ?_ hfit.1.2 hfit.2 h.flat h.lined h.leaves
      rw [List.all_eq_true]
      intro k hkm
      obtain ⟨b, bs, rfl, hbk⟩ := hkids k hkm
      simp [noSpan, hbk]
  · rw [if_neg hd] at ho
    simp only [Except.ok.injEq] at ho
    subst ho
    have hnil : contentOf d.body = [] := by
      rw [ha] at hd
      generalize contentOf d.body = ks at *
      cases ks with
      | nil => rfl
      | cons k ks =>
        exfalso
        obtain ⟨b, bs, rfl, hbk⟩ := hkids k List.mem_cons_self
        apply hd
        simp [hasDiv, hbk]
    rw [hnil]; rfl

end Verif.Convert
