import Verif.Convert.LookProps
import Verif.Convert.Chain

/-! Lemmas: the segments of whole documents and the spliced document can be encoded. -/
namespace Verif.Convert

open Verif.Doc hiding Name
open Verif.Style Verif.Time
open Verif.SegHead (mapN mapNL HDoc Full Piece piecesAt piecesOf newName Held Merged IsSeg)

/-! ### Windows -/

/-- The windows of an extraction: of held documents with different numbers, with bounds in whole milliseconds inside those of the
extraction. -/
theorem held_windows {cfg : Seq.Cfg} {agid : Option String} {s : Seq.State} {log : List Seq.Doc}
    (h : Seq.Reach cfg agid s log) (docs : Seq.Doc → HDoc) (lo hi : Option Int) (top : Int)
    (hlo : ∀ b, lo = some b → b % 1000 = 0) (hhi : ∀ e, hi = some e → e ≤ top ∧ e % 1000 = 0)
    (hlh : ∀ b e, lo = some b → hi = some e → b ≤ e)
    (hopen : hi = none → ∀ d ∈ s.docs, ∃ e, Seq.resolvedEnd s d = some (some e) ∧ e ≤ top)
    (hheld : ∀ d ∈ s.docs, Held (docs d) d top) :
    ∃ ws, Seq.extractWindows s lo hi = some ws ∧ (∀ w ∈ ws, w.1 ∈ s.docs) ∧ (ws.map (·.1.num)).Nodup ∧
      ∀ w ∈ ws, (∀ b, w.2.1 = some b → b % 1000 = 0) ∧ (∃ we, w.2.2 = some we ∧ we ≤ top ∧ we % 1000 = 0) ∧
        ∀ b, lo = some b → (∃ b', w.2.1 = some b' ∧ b ≤ b') ∧ ∀ we, w.2.2 = some we → b ≤ we := by
  obtain ⟨ws, hws, hcons, hfst, hin, hpw, hact⟩ := Seq.C12_windows h lo hi hlh
  have hwd : ∀ w ∈ ws, w.1 ∈ s.docs := by
    intro w hw
    have : w.1 ∈ ws.map (·.1) := List.mem_map_of_mem hw
    rw [hfst, List.mem_filter] at this
    exact this.1
  have hnums : (ws.map (·.1.num)).Nodup := by
    have h1 : (s.docs.map (·.num)).Nodup := by
      rw [List.nodup_iff_pairwise_ne, List.pairwise_map]
      exact h.inv.core.drel.imp (fun hab => by have := hab.1; omega)
    have h2 : ((ws.map (·.1)).map (·.num)).Nodup := by
      rw [hfst]
      exact (List.Sublist.map _ List.filter_sublist).nodup h1
    rw [List.map_map] at h2
    exact h2
  have hends := Doc.windows_ends _ _ ws hws
  -- the windows' bounds
  have hdms : ∀ d ∈ s.docs, d.cbegin % 1000 = 0 ∧ ∀ e, d.cend = some e → e % 1000 = 0 := by
    intro d hd
    obtain ⟨_, x, kids, _, hb, he, _, _, _, hlab⟩ := SegHead.held_cov (hheld d hd)
    have := Doc.times_whole (hheld d hd).regular.availMs (docs d).body 0 none (by simp) (by simp) (hheld d hd).regular.inMs x.lab _
      (by rw [← hlab, mapN])
    rw [hb, he]
    exact this
  have hendms : ∀ w ∈ ws, ∀ e, w.2.2 = some e → e % 1000 = 0 := by
    intro w hw e he
    obtain ⟨r, hr, hwe⟩ := hends w hw
    have hr' := (Seq.C04_resolved_times h w.1 (hwd w hw)).2
    rw [hr] at hr'
    injection hr' with hr'
    have hrms : ∀ y, r = some y → y % 1000 = 0 := by
      intro y hy
      rcases Doc.earliest_cases w.1.cend ((Seq.nextDoc s.docs w.1).map (·.cbegin)) with hc | hc
      · rw [hr', hc] at hy
        exact (hdms w.1 (hwd w hw)).2 y hy
      · rw [hr', hc, Option.map_eq_some_iff] at hy
        obtain ⟨n, hn, rfl⟩ := hy
        unfold Seq.nextDoc at hn
        exact (hdms n (List.mem_of_find?_eq_some hn)).1
    rw [hwe] at he
    unfold Seq.winEnd at he
    cases hhh : hi with
    | none => rw [hhh] at he; exact hrms e he
    | some c =>
      have hc := (hhi c hhh).2
      cases hrr : r with
      | none => rw [hhh, hrr] at he; simp at he; omega
      | some y =>
        have := hrms y hrr
        rw [hhh, hrr] at he
        simp only at he
        split at he <;> simp at he <;> omega
  have hbd : ∀ w ∈ ws, (∀ b, w.2.1 = some b → b % 1000 = 0) ∧ ∃ we, w.2.2 = some we ∧ we ≤ top ∧ we % 1000 = 0 := by
    intro w hw
    have hend : ∃ we, w.2.2 = some we ∧ we ≤ top ∧ we % 1000 = 0 := by
      cases hhh : hi with
      | none =>
        obtain ⟨r, hr, hwe⟩ := hends w hw
        obtain ⟨e, he, hle⟩ := hopen hhh w.1 (hwd w hw)
        rw [hr] at he
        injection he with he
        rw [hhh, he] at hwe
        exact ⟨e, hwe, hle, hendms w hw e hwe⟩
      | some c =>
        obtain ⟨we, hwe, hle⟩ := (hin w hw).2 c hhh
        have := (hhi c hhh).1
        exact ⟨we, hwe, by omega, hendms w hw we hwe⟩
    refine ⟨?_, hend⟩
    intro b hb
    rcases Doc.consecutive_begin hcons w hw with hc | ⟨w', hw', hc⟩
    · exact hlo b (by rw [← hc]; exact hb)
    · exact hendms w' hw' b (by rw [← hc]; exact hb)
  refine ⟨ws, hws, hwd, hnums, ?_⟩
  intro w hw
  refine ⟨(hbd w hw).1, (hbd w hw).2, ?_⟩
  intro b hb
  refine ⟨(hin w hw).1 b hb, ?_⟩
  intro we g2
  obtain ⟨r, hr, hwe⟩ := hends w hw
  have hsh : Seq.ShownIn s lo hi w.1 = true := by
    have : w.1 ∈ ws.map (·.1) := List.mem_map_of_mem hw
    rw [hfst, List.mem_filter] at this
    exact this.2
  rw [g2] at hwe
  have hbr : ∀ y, r = some y → b < y := by
    intro y hy
    unfold Seq.ShownIn at hsh
    rw [hr, hb, hy] at hsh
    simp only [Bool.and_eq_true, decide_eq_true_eq] at hsh
    exact hsh.2
  unfold Seq.winEnd at hwe
  cases hhh : hi with
  | none => rw [hhh] at hwe; have := hbr we hwe.symm; omega
  | some t =>
    have := hlh b t hb hhh
    rw [hhh] at hwe
    cases hrr : r with
    | none => rw [hrr] at hwe; simp at hwe; omega
    | some y =>
      have := hbr y hrr
      rw [hrr] at hwe
      simp only at hwe
      split at hwe <;> simp at hwe <;> omega

/-! ### Segments -/

theorem segment_ready {v : Env} (hrd : v.rd.Accurate) (hns : v.base ≠ .smpte) {avail : Int} (ha : 0 ≤ avail) (hams : avail % 1000 = 0)
    {root : Node Att} (hs : Sane root) (hsh : shaped root = true) (hmix : unmixed root = true) (hw : wellTimed root = true)
    (hms : inMs root = true) (hf : flat root = true) {wb : Option Int} {we : Int} (hwin : v.win = ⟨wb, some we⟩)
    (h0 : ∀ b, wb = some b → b % 1000 = 0) (he : we % 1000 = 0) (m : Media) (hbase : v.base = m.base)
    (hz : m.base = .clock → (∃ b, wb = some b ∧ m.zero ≤ b) ∧ m.zero ≤ we) {seg : Node Att}
    (hseg : segment v (times avail 0 none root) = .ok seg) : SegReady m seg := by
  obtain ⟨a0, kids0, hroot, hk0⟩ := hs.body
  have her : erase (times avail 0 none root) = root := by
    obtain ⟨v', hv', he, _⟩ := C14_computed_times_partial avail root hs
    rw [validateDoc_eq] at hv'
    injection hv' with hv'
    rw [hv']; exact he
  have hx : ∃ x kids, times avail 0 none root = .elem x kids ∧ x.att.kind = .body := by
    rw [hroot, times]
    exact ⟨_, _, rfl, hk0⟩
  obtain ⟨x, kids, hx, hxk⟩ := hx
  have hbody : SegBody seg := by
    rw [hx] at hseg her
    exact segment_body hxk (by rw [her]; exact hsh) hseg
  have hflat : flatL (contentOf seg) = true := by
    rw [hx] at hseg her
    exact segment_flat (by rw [her]; exact hf) hseg
  refine ⟨hbody, hflat, ?_⟩
  have hC := C23_segment_leaves_partial v hrd hns avail ha root hs hsh hmix hw _ (validateDoc_eq _ _) seg hseg
  have hcont : leavesAtt seg = leavesL Att.kind (contentOf seg) := by
    obtain ⟨a, ha, hak, _⟩ := hbody.elem
    rw [ha]
    simp [leavesAtt, leaves, Leaf, hak, contentOf]
  intro l hl
  rw [← hcont] at hl
  obtain ⟨y, hy, _, _, hd, b, e, te, hb, hfe, hte, hbd, hed, _, _⟩ := forall₂_right hC l hl
  rw [List.mem_filter] at hy
  obtain ⟨f1, f2, f3⟩ := leaf_facts ha hs hsh hw hy.1
  obtain ⟨f4, f5⟩ := f3 hms hams
  have ho := hy.2
  rw [hwin] at hte hbd ho
  simp only [Overlaps, cutBegin, cutEnd] at ho hbd hte
  have hcb : b.delta % 1000 = 0 ∧ 0 ≤ b.delta ∧ ∀ w, wb = some w → w ≤ b.delta := by
    cases hwb : wb with
    | none =>
      rw [hwb] at hbd
      simp only at hbd
      refine ⟨by unfold toMs at hbd; omega, by unfold toMs at hbd; omega, by simp⟩
    | some w =>
      rw [hwb] at hbd
      simp only at hbd
      have := h0 w hwb
      refine ⟨by unfold toMs at hbd; omega, by unfold toMs at hbd; omega, ?_⟩
      intro w' hw'
      injection hw' with hw'
      unfold toMs at hbd; omega
  have hce : e.delta % 1000 = 0 ∧ 0 < e.delta ∧ (∀ w, wb = some w → w ≤ we → w ≤ e.delta) := by
    cases hye : y.1.comp.e with
    | none =>
      rw [hye] at ho hte
      simp only [Option.some.injEq] at hte
      simp at ho
      unfold toMs at hed
      refine ⟨by omega, by omega, ?_⟩
      intro w _ hw; omega
    | some ye =>
      have g2 := f2 ye hye
      have g5 := f5 ye hye
      rw [hye] at ho hte
      simp only [Option.some.injEq] at hte
      simp only [Bool.and_eq_true, decide_eq_true_eq] at ho
      unfold toMs at hed
      refine ⟨by omega, by omega, ?_⟩
      intro w hw hle
      rw [hw] at ho
      simp only [decide_eq_true_eq] at ho
      omega
  refine ⟨hd, b, e, hb, hfe, hcb.1, hce.1, hcb.2.1, hce.2.1, ?_, ?_⟩
  · unfold timeFits
    cases hmb : m.base with
    | clock =>
      obtain ⟨⟨w, hw, hzw⟩, _⟩ := hz hmb
      have := hcb.2.2 w hw
      simp only [decide_eq_true_eq]; omega
    | media => rfl
    | smpte => exfalso; rw [← hbase] at hmb; exact hns hmb
  · unfold timeFits
    cases hmb : m.base with
    | clock =>
      obtain ⟨⟨w, hw, hzw⟩, hzwe⟩ := hz hmb
      simp only [decide_eq_true_eq]
      by_cases hle : w ≤ we
      · have := hce.2.2 w hw hle; omega
      · cases hye : y.1.comp.e with
        | none =>
          rw [hye] at hte
          simp only [Option.some.injEq] at hte
          unfold toMs at hed; omega
        | some ye =>
          have g5 := f5 ye hye
          rw [hye, hw] at ho
          rw [hye] at hte
          simp only [Option.some.injEq] at hte
          simp only [Bool.and_eq_true, decide_eq_true_eq] at ho
          unfold toMs at hed; omega
    | media => rfl
    | smpte => exfalso; rw [← hbase] at hmb; exact hns hmb


theorem extract_ready {h s : HDoc} {d : Seq.Doc} {top : Int} (hh : Held h d top) (hf : flat h.body = true) {wb : Option Int} {we : Int}
    (h0 : ∀ b, wb = some b → b % 1000 = 0) (he : we % 1000 = 0) (m : Media) (hbase : h.base = m.base)
    (hz : m.base = .clock → (∃ b, wb = some b ∧ m.zero ≤ b) ∧ m.zero ≤ we) {pre : Option Nat}
    (hx : h.extract ⟨wb, some we⟩ pre = .ok s) : SegReady m s.body := by
  obtain ⟨infos, n, hv, hs⟩ := SegHead.extract_ok hx
  have hseg := (SegHead.segmentOf_ok hs).2.2.2.2.1
  rw [(SegHead.validate_ok hv).2.2.1] at hseg
  exact segment_ready (v := SegHead.segEnv h ⟨wb, some we⟩ pre n) hh.regular.rd hh.regular.base hh.regular.avail hh.regular.availMs
    hh.regular.sane hh.regular.shaped hh.regular.unmixed hh.regular.wellTimed hh.regular.inMs hf rfl h0 he m hbase hz hseg

theorem extract_unnested {h s : HDoc} (hb : ∃ a kids, h.body = .elem a kids) (hu : unnested h.body = true) {w : Win} {pre : Option Nat}
    (hx : h.extract w pre = .ok s) : unnested s.body = true := by
  obtain ⟨infos, n, hv, hs⟩ := SegHead.extract_ok hx
  obtain ⟨c, hc, hcop⟩ := SegHead.seg_body hv hb hs
  have := (SegHead.cut_noRegions (w := w) n).2 (by rw [(SegHead.validate_ok hv).2.2.2.2]; exact hu)
  rw [hc] at this
  simp only [Option.toList, mapNL, Style.unnestedL, Bool.and_true] at this
  exact (SegHead.copied_unnested hcop).2 this

theorem extract_flat {h s : HDoc} (hf : Flat h.head) {w : Win} {pre : Option Nat} (hx : h.extract w pre = .ok s) : Flat s.head := by
  obtain ⟨infos, n, hv, hs⟩ := SegHead.extract_ok hx
  intro p hp
  rw [(SegHead.segmentOf_ok hs).1, SegHead.segSheet] at hp
  obtain ⟨q, hq, rfl⟩ := List.mem_map.mp hp
  have := hf q (List.mem_filter.mp hq).1
  simp [this]

/-! ### The spliced document -/

mutual
theorem unnested_plain : ∀ n : Node Att, noRegions (plain n) = noRegions n ∧ unnested (plain n) = unnested n
  | .text _ => ⟨rfl, rfl⟩
  | .br => ⟨rfl, rfl⟩
  | .elem a kids => by
    obtain ⟨h1, h2⟩ := unnestedL_plain kids
    have : ownRegion { a with id := none } = ownRegion a := rfl
    rw [plain, noRegions, noRegions, unnested, unnested, h1, h2, this]
    exact ⟨rfl, rfl⟩
theorem unnestedL_plain : ∀ ks : List (Node Att), noRegionsL (plainL ks) = noRegionsL ks ∧ unnestedL (plainL ks) = unnestedL ks
  | [] => ⟨rfl, rfl⟩
  | k :: ks => by
    obtain ⟨h1, h2⟩ := unnested_plain k
    obtain ⟨h3, h4⟩ := unnestedL_plain ks
    rw [plainL, noRegionsL, noRegionsL, unnestedL, unnestedL, h1, h2, h3, h4]
    exact ⟨rfl, rfl⟩
end

theorem unnestedL_flatten : ∀ l : List (List (Node Att)), (∀ ks ∈ l, unnestedL ks = true) → unnestedL l.flatten = true
  | [], _ => rfl
  | ks :: l, h => by
    rw [List.flatten_cons]
    have gen : ∀ a b : List (Node Att), unnestedL (a ++ b) = (unnestedL a && unnestedL b) := by
      intro a b
      induction a with
      | nil => rfl
      | cons k a ih => rw [List.cons_append, unnestedL, unnestedL, ih, Bool.and_assoc]
    rw [gen, h ks (by simp), unnestedL_flatten l (fun q hq => h q (List.mem_cons_of_mem _ hq))]
    rfl

theorem flatL_flatten : ∀ l : List (List (Node Att)), (∀ ks ∈ l, flatL ks = true) → flatL l.flatten = true
  | [], _ => rfl
  | ks :: l, h => by
    rw [List.flatten_cons, flatL_append, h ks (by simp), flatL_flatten l (fun q hq => h q (List.mem_cons_of_mem _ hq))]
    rfl

theorem leavesL_flatten : ∀ (l : List (List (Node Att))) (x : Att × List Item), x ∈ leavesL Att.kind l.flatten →
    ∃ ks ∈ l, x ∈ leavesL Att.kind ks
  | [], x, h => by simp [leavesL] at h
  | ks :: l, x, h => by
    rw [List.flatten_cons, leavesL_append, List.mem_append] at h
    rcases h with h | h
    · exact ⟨ks, by simp, h⟩
    · obtain ⟨q, hq, hx⟩ := leavesL_flatten l x h
      exact ⟨q, List.mem_cons_of_mem _ hq, hx⟩

theorem merged_ready {m : Media} {segs : List HDoc} {acc : HDoc} (h : Merged segs acc) (hs : ∀ s ∈ segs, SegReady m s.body) :
    SegReady m acc.body := by
  refine ⟨h.body, ?_, ?_⟩
  · rw [← flatL_plain, h.content]
    apply flatL_flatten
    intro ks hks
    obtain ⟨s, hs', rfl⟩ := List.mem_map.mp hks
    rw [flatL_plain]
    exact (hs s hs').flat
  · intro l hl
    have hm : ({ l.1 with id := none }, l.2) ∈ leavesL Att.kind (plainL (contentOf acc.body)) := by
      rw [leavesL_plain]
      exact List.mem_map.mpr ⟨l, hl, rfl⟩
    rw [h.content] at hm
    obtain ⟨ks, hks, hx⟩ := leavesL_flatten _ _ hm
    obtain ⟨s, hs', rfl⟩ := List.mem_map.mp hks
    rw [leavesL_plain, List.mem_map] at hx
    obtain ⟨l', hl', he⟩ := hx
    have := (hs s hs').leaves l' hl'
    rw [← leafOk_id] at this ⊢
    simp only [Prod.mk.injEq] at he
    rw [← he.1]
    exact this

theorem seq_noClash {n : Nat} {x : List Char} : ¬ "autogenFontStyle_None_".toList <+: seqPrefix n x := by
  rintro ⟨q, hq⟩
  have h1 : "autogenFontStyle_None_".toList = 'a' :: "utogenFontStyle_None_".toList := rfl
  have h2 : seqPrefix n x = 'S' :: ("EQ".toList ++ digs n ++ '.' :: x) := rfl
  rw [h1, h2, List.cons_append, List.cons.injEq] at hq
  exact absurd hq.1 (by decide)

/-- A spliced document of segments of suitable documents can be encoded. -/
theorem merged_encodable {m : Media} {segs : List HDoc} {acc : HDoc} (h : Merged segs acc)
    (hs : ∀ s ∈ segs, SegReady m s.body ∧ unnested s.body = true ∧ Flat s.head ∧ ∃ n, IsSeg n s) (hne : contentOf acc.body ≠ []) :
    Encodable m acc := by
  obtain ⟨a, ha, hk, hc⟩ := h.body.elem
  have hst := h.plainBody a _ ha
  have hready := merged_ready h (fun s hs' => (hs s hs').1)
  have hfit := h.body.fit
  simp only [Fit, Bool.and_eq_true] at hfit
  obtain ⟨h1, h2, h3, h4, h5⟩ := readyL_of_tidy m _ hfit.1.2 hfit.2 hready.flat hready.leaves
  have hun : unnestedL (contentOf acc.body) = true := by
    rw [← (unnestedL_plain _).2, h.content]
    apply unnestedL_flatten
    intro ks hks
    obtain ⟨s, hs', rfl⟩ := List.mem_map.mp hks
    rw [(unnestedL_plain _).2]
    obtain ⟨b, hb, hbk, _⟩ := (hs s hs').1.body.elem
    have hu := (hs s hs').2.1
    generalize contentOf s.body = cs at *
    rw [hb, unnested] at hu
    simpa [ownRegion, hasRegion, hbk] using hu
  have hplain : plainTimes acc.body = true ∧ containersUntimed acc.body = true ∧ inMs acc.body = true ∧ beginsOnce acc.body = true := by
    obtain ⟨u1, u2, u3⟩ := hc.resolve_left hne
    generalize contentOf acc.body = cs at *
    rw [ha]
    refine ⟨?_, ?_, ?_, ?_⟩
    · rw [plainTimes, u1, u2, h2]; rfl
    · rw [containersUntimed, h1]; simp [untimed, u1, u2, u3]
    · rw [inMs, u1, u2, u3, h3]; rfl
    · rw [beginsOnce, u1, h4]; rfl
  refine ⟨⟨a, _, ha, hk, hst⟩, ?_, ?_, ?_, ?_, hplain.1, hplain.2.1, hplain.2.2.1, fun _ => hplain.2.2.2⟩
  · generalize contentOf acc.body = cs at *
    rw [ha, shaped, hk, hfit.1.1, hfit.1.2]; rfl
  · generalize contentOf acc.body = cs at *
    rw [ha, unnested]
    simpa [ownRegion, hasRegion, hk] using hun
  · intro p hp
    rw [h.sheet] at hp
    obtain ⟨l, hl, hpl⟩ := List.mem_flatten.mp hp
    obtain ⟨s, hs', rfl⟩ := List.mem_map.mp hl
    exact (hs s hs').2.2.1 p hpl
  · intro p hp
    rw [h.sheet] at hp
    obtain ⟨l, hl, hpl⟩ := List.mem_flatten.mp hp
    obtain ⟨s, hs', rfl⟩ := List.mem_map.mp hl
    obtain ⟨n, hseg⟩ := (hs s hs').2.2.2
    have hmem : p.1 ∈ s.sdoc.ids := by
      unfold SDoc.ids
      rw [SegHead.sdoc_styles hseg.styling]
      exact List.mem_append_left _ (List.mem_append_left _ (List.mem_map_of_mem hpl))
    obtain ⟨y, hy⟩ := hseg.pre p.1 hmem
    rw [hy]
    exact seq_noClash

/-- A document with an empty body shows nothing before and after it is encoded. -/
theorem empty_pieces {m : Media} {pr : Rat → List Char} {res : Rat × Rat} {place : Name → List Char × List Char} {o : HDoc} {d : DDoc}
    (h : encodeH m pr res place o = some d) {a : Att} (hb : o.body = .elem a []) (hk : a.kind = .body) (t u : Int) :
    piecesOf o t = [] ∧ dPiecesAt d u = [] := by
  obtain ⟨infos, n, hv, hc⟩ := encodeH_ok h
  have hlab := (SegHead.validate_ok hv).2.2.1
  obtain ⟨_, c, hp'⟩ := presentDoc_ok (presentDoc_of_validate hv)
  have hforget := present_forget hp'
  constructor
  · unfold piecesOf
    rw [hv]
    apply SegHead.pieces_nil
    rw [hlab, hb]
    simp [shownAt, times, timesL, leavesOf, leaves, Leaf, leavesL, hk]
  · obtain ⟨ds, _, _, h3⟩ := convertDoc_ok hc
    rcases h3 with ⟨_, _, h5⟩ | ⟨h4, _⟩
    · unfold dPiecesAt
      rw [h5]; rfl
    · rw [hforget, hb] at h4
      simp [hasDiv] at h4

end Verif.Convert
