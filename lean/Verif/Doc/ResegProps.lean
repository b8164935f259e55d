import Verif.Doc.Reseg

/-! C28: what the document extracted from a sequence shows. -/
namespace Verif.Doc

/-! ### Content without identifiers -/

mutual
theorem shaped_plain : ∀ (n : Node Att), shaped (plain n) = shaped n
  | .text s => rfl
  | .br => rfl
  | .elem a kids => by
    rw [plain, shaped, shaped, shapedL_plain kids, fitsL_plain]
theorem shapedL_plain : ∀ (ns : List (Node Att)), shapedL (plainL ns) = shapedL ns
  | [] => rfl
  | k :: ks => by rw [plainL, shapedL, shapedL, shaped_plain k, shapedL_plain ks]
theorem fitsL_plain (kd : Kind) : ∀ (ns : List (Node Att)), (plainL ns).all (fits kd) = ns.all (fits kd)
  | [] => rfl
  | k :: ks => by
    rw [plainL, List.all_cons, List.all_cons, fitsL_plain kd ks]
    congr 1
    cases k <;> rfl
end

theorem items_plain (ns : List (Node Att)) : items (plainL ns) = items ns := by
  induction ns with
  | nil => rfl
  | cons k ks ih => cases k <;> simp [plainL, plain, items, ih]

theorem isSpan_plain (ns : List (Node Att)) : (plainL ns).any (isSpan Att.kind) = ns.any (isSpan Att.kind) := by
  induction ns with
  | nil => rfl
  | cons k ks ih => cases k <;> simp [plainL, plain, isSpan, ih]

theorem hasContent_plain (kd : Kind) (ns : List (Node Att)) : hasContent kd (plainL ns) = hasContent kd ns := by
  cases kd with
  | body => rfl
  | div =>
    unfold hasContent
    induction ns with
    | nil => rfl
    | cons k ks ih => cases k <;> simp_all [plainL, plain]
  | p => simp [hasContent, items_plain, isSpan_plain]
  | span => simp [hasContent, items_plain, isSpan_plain]

theorem leaf_plain (a : Att) (ns : List (Node Att)) :
    Leaf Att.kind { a with id := none } (plainL ns) = Leaf Att.kind a ns := by
  simp [Leaf, isSpan_plain]

mutual
theorem tidy_plain : ∀ (n : Node Att), tidy (plain n) = tidy n
  | .text s => rfl
  | .br => rfl
  | .elem a kids => by
    rw [plain, tidy, tidy, tidyL_plain kids, leaf_plain, hasContent_plain]
theorem tidyL_plain : ∀ (ns : List (Node Att)), tidyL (plainL ns) = tidyL ns
  | [] => rfl
  | k :: ks => by rw [plainL, tidyL, tidyL, tidy_plain k, tidyL_plain ks]
end

mutual
theorem leaves_plain : ∀ (n : Node Att),
    leaves Att.kind (plain n) = (leaves Att.kind n).map (fun l => ({ l.1 with id := none }, l.2))
  | .text s => rfl
  | .br => rfl
  | .elem a kids => by
    rw [plain, leaves, leaves, leaf_plain, items_plain, leavesL_plain kids]
    split
    · split <;> rfl
    · rfl
theorem leavesL_plain : ∀ (ns : List (Node Att)),
    leavesL Att.kind (plainL ns) = (leavesL Att.kind ns).map (fun l => ({ l.1 with id := none }, l.2))
  | [] => rfl
  | k :: ks => by rw [plainL, leavesL, leavesL, leaves_plain k, leavesL_plain ks, List.map_append]
end

/-- What content validated on its own shows. -/
def shownContent (ns : List (Node Att)) (t : Int) : List (List Item) :=
  ((leavesL Att.kind ns).filter (fun l => (compOf 0 0 none l.1 []).at t)).map (·.2)

theorem compOf_id (avail sync : Int) (bound : Option Int) (a : Att) (ks : List Comp) :
    compOf avail sync bound { a with id := none } ks = compOf avail sync bound a ks := rfl

theorem shownContent_plain (ns : List (Node Att)) (t : Int) : shownContent (plainL ns) t = shownContent ns t := by
  unfold shownContent
  rw [leavesL_plain, List.filter_map, List.map_map]
  congr 1

theorem leavesL_append (a b : List (Node Att)) : leavesL Att.kind (a ++ b) = leavesL Att.kind a ++ leavesL Att.kind b := by
  induction a with
  | nil => rfl
  | cons k ks ih => simp [leavesL, ih]

theorem shownContent_append (a b : List (Node Att)) (t : Int) :
    shownContent (a ++ b) t = shownContent a t ++ shownContent b t := by
  simp [shownContent, leavesL_append]

/-- Content a segment's body can have. -/
def Fit (ns : List (Node Att)) : Bool := ns.all (fits .body) && shapedL ns && tidyL ns

theorem Fit_plain (ns : List (Node Att)) : Fit (plainL ns) = Fit ns := by
  simp [Fit, fitsL_plain, shapedL_plain, tidyL_plain]

theorem Fit_append (a b : List (Node Att)) : Fit (a ++ b) = (Fit a && Fit b) := by
  simp only [Fit, List.all_append, shapedL_append, tidyL_append]
  cases a.all (fits .body) <;> cases shapedL a <;> cases tidyL a <;> cases b.all (fits .body) <;> cases shapedL b <;> rfl

/-- A body whose times are not given, or that is empty. -/
structure SegBody (n : Node Att) : Prop where
  elem : ∃ a, n = .elem a (contentOf n) ∧ a.kind = .body ∧ (contentOf n = [] ∨ a.beg = none ∧ a.fin = none ∧ a.dur = none)
  fit : Fit (contentOf n) = true

theorem SegBody.shown {n : Node Att} (h : SegBody n) (t : Int) :
    shownAt (times 0 0 none n) t = shownContent (contentOf n) t := by
  obtain ⟨a, ha, hk, hc⟩ := h.elem
  have hf := h.fit
  simp only [Fit, Bool.and_eq_true] at hf
  generalize contentOf n = ks at *
  subst ha
  have hleaf : Leaf Att.kind a ks = false := by simp [Leaf, hk]
  rcases hc with rfl | hc
  · simp [shownAt, times, timesL, leavesOf, leaves, Leaf, leavesL, hk, shownContent]
  · unfold shownAt
    rw [times_leaves (.elem a ks) (by simp [shaped, hk, hf.1.1, hf.1.2]) (by simp [tidy, hk, hasContent, hc, hf.2])]
    simp only [leavesAtt, leaves, hleaf, shownContent]
    rw [List.filter_map, List.map_map]
    congr 1

theorem segment_body {v : Env} {x : Lab} {kids : List (Node Lab)} (hb : x.att.kind = .body)
    (hsh : shaped (erase (.elem x kids)) = true) {seg : Node Att} (h : segment v (.elem x kids) = .ok seg) : SegBody seg := by
  obtain ⟨h1, h2⟩ := segment_tidy hb hsh h
  rcases h2 with ⟨a, rfl, hk⟩ | h2
  · exact ⟨⟨a, rfl, hk, .inl rfl⟩, by simp [Fit, contentOf, shapedL, tidyL]⟩
  · obtain ⟨a, ks, hseg, hk, hcase⟩ := segment_cases h
    rcases hcase with ⟨_, rfl⟩ | ⟨rfl, b, e, _, _, rfl⟩
    · have hkb : a.kind = .body := by rw [hk, hb]
      simp only [shaped, tidy, Bool.and_eq_true] at h1 h2
      refine ⟨⟨a, rfl, hkb, .inr ?_⟩, ?_⟩
      · have := h2.1.2
        simpa [Leaf, hkb] using this
      · simp only [Fit, contentOf, Bool.and_eq_true]
        rw [hkb] at h1
        exact ⟨h1, h2.2⟩
    · exact ⟨⟨_, rfl, by simp [hk, hb], .inl rfl⟩, by simp [Fit, contentOf, shapedL, tidyL]⟩

theorem fold_body : ∀ (ds : List SDoc) (st : List Name × SDoc), SegBody st.2.body → (∀ d ∈ ds, SegBody d.body) →
    SegBody (ds.foldl mergeDoc st).2.body
  | [], _, h, _ => h
  | d :: ds, st, h, hd => by
    rw [List.foldl_cons]
    refine fold_body ds _ ?_ (fun d' hd' => hd d' (List.mem_cons_of_mem _ hd'))
    obtain ⟨a, ha, hk, _⟩ := h.elem
    have hf := (hd d List.mem_cons_self).fit
    refine ⟨⟨mergedAtt st.2.body, rfl, ?_, .inr ?_⟩, ?_⟩
    · rw [ha]; exact hk
    · rw [ha]; exact ⟨rfl, rfl, rfl⟩
    · rw [← Fit_plain]
      show Fit (plainL (contentOf (mergeBody _ _ _).2)) = true
      rw [mergeBody_plain, Fit_append, Fit_plain, Fit_plain, h.fit, hf]
      rfl

/-- The spliced document shows what the segments show, one after the other. -/
theorem splice_shown (segs : List SDoc) (h : ∀ d ∈ segs, SegBody d.body) (t : Int) :
    shownBy (splice segs) t = (segs.map (fun d => shownContent (contentOf d.body) t)).flatten := by
  have hcont : ∀ (l : List SDoc), shownContent ((l.map (fun d => plainL (contentOf d.body))).flatten) t =
      (l.map (fun d => shownContent (contentOf d.body) t)).flatten := by
    intro l
    induction l with
    | nil => rfl
    | cons d l ih => simp only [List.map_cons, List.flatten_cons]; rw [shownContent_append, ih, shownContent_plain]
  cases segs with
  | nil => rfl
  | cons d ds =>
    have hb : SegBody (ds.foldl mergeDoc ([], d)).2.body :=
      fold_body ds ([], d) (h d List.mem_cons_self) (fun d' hd' => h d' (List.mem_cons_of_mem _ hd'))
    have hc := C27_content_in_order (d :: ds) _ rfl
    unfold shownBy
    rw [splice]
    simp only [validateDoc_eq]
    rw [hb.shown, ← shownContent_plain, hc, hcont]

/-! ### One document's window -/

theorem good_body {src : Source} {d : Seq.Doc} {hi : Int} (hg : src.Sound d hi) :
    ∃ x kids, times src.avail 0 none src.root = .elem x kids ∧ x.att.kind = .body ∧ d.cbegin = x.comp.b ∧ d.cend = x.comp.e ∧
      erase (.elem x kids) = src.root := by
  obtain ⟨x, kids, hv, hb, he⟩ := hg.times
  obtain ⟨v', hv', her, _⟩ := C14_computed_times_partial src.avail src.root hg.sane
  rw [hv] at hv'
  injection hv' with hv'
  rw [validateDoc_eq] at hv
  injection hv with hv
  obtain ⟨a0, ks0, hroot, hbody⟩ := hg.sane.body
  refine ⟨x, kids, hv, ?_, hb, he, by rw [hv']; exact her⟩
  rw [← hv', hroot, erase] at her
  injection her with h1 _
  rw [h1]; exact hbody

theorem good_shownIn_eq {src : Source} {d : Seq.Doc} {hi : Int} (_ : src.Sound d hi) (t : Int) :
    shownIn src t = shownAt (times src.avail 0 none src.root) t := by
  unfold shownIn
  rw [validateDoc_eq]

/-- A document shows nothing outside its own computed interval. -/
theorem good_shown_outside {src : Source} {d : Seq.Doc} {hi : Int} (hg : src.Sound d hi) {t : Int}
    (ht : t < d.cbegin ∨ ∃ e, d.cend = some e ∧ e ≤ t) : shownIn src t = [] := by
  rw [good_shownIn_eq hg]
  obtain ⟨x, kids, hx, hk, hb, he, _⟩ := good_body hg
  have hcov := cov_times (avail := src.avail) hg.sane hg.wellTimed
  rw [hx] at hcov ⊢
  unfold shownAt
  rw [List.map_eq_nil_iff, List.filter_eq_nil_iff]
  intro l hl hat
  obtain ⟨anc, ks, hr, _⟩ := mem_leaves _ l hl
  obtain ⟨c1, c2⟩ := hcov.root hr l.1 ks rfl
  simp only [Comp.at, Bool.and_eq_true, decide_eq_true_eq] at hat
  rcases ht with ht | ⟨e, hde, hle⟩
  · omega
  · rw [he] at hde
    obtain ⟨e', he', hle'⟩ := c2 e hde
    rw [he'] at hat
    simp only [decide_eq_true_eq] at hat
    omega

theorem not_overlaps_shown {n : Node Lab} (hc : Cov n) {x : Lab} {kids : List (Node Lab)} (hn : n = .elem x kids) {w : Win}
    (ho : Overlaps w x.comp = false) {t : Int} (ht : w.at t = true) : shownAt n t = [] := by
  subst hn
  unfold shownAt
  rw [List.map_eq_nil_iff, List.filter_eq_nil_iff]
  intro l hl hat
  obtain ⟨anc, ks, hr, _⟩ := mem_leaves _ l hl
  have hcov := hc.root hr l.1 ks rfl
  have hol : Overlaps w l.1.comp = true := by
    unfold Overlaps
    unfold Win.at at ht
    unfold Comp.at at hat
    cases hb : w.b <;> cases he : w.e <;> cases hce : l.1.comp.e <;> simp_all <;> omega
  rw [hcov.overlaps hol] at ho
  simp at ho

/-- The segment of one document's window, which may be open at the front. -/
theorem segmentOf_shown {src : Source} {d : Seq.Doc} {hi : Int} (hg : src.Good d hi) (num : Nat) {wb : Option Int} {we : Int}
    (h0 : ∀ b, wb = some b → b % 1000 = 0) (hhi : we ≤ hi) (he : we % 1000 = 0) :
    (∀ sd, segmentOf src num ⟨wb, some we⟩ = some sd → SegBody sd.body) ∧
    ∀ t, (segmentOf src num ⟨wb, some we⟩).elim [] (fun sd => shownContent (contentOf sd.body) t) =
      if Win.at ⟨wb, some we⟩ t then shownIn src t else [] := by
  obtain ⟨x, kids, hx, hk, _, _, her⟩ := good_body hg.toSound
  have hsh : shaped (erase (.elem x kids)) = true := by rw [her]; exact hg.shaped
  unfold segmentOf
  rw [validateDoc_eq, hx]
  simp only
  cases hseg : segment (src.env num ⟨wb, some we⟩) (.elem x kids) with
  | ok seg =>
    have hbody := segment_body hk hsh hseg
    refine ⟨?_, ?_⟩
    · intro sd hsd
      simp only [Option.some.injEq] at hsd
      rw [← hsd]
      exact hbody
    · intro t
      have hbase : (src.env num ⟨wb, some we⟩).base ≠ .smpte := by
        intro hc
        have hc : src.base = .smpte := hc
        rcases hg.base with hb | ⟨hb, _⟩ <;> rw [hb] at hc <;> simp at hc
      obtain ⟨segdoc, hsd, hshow⟩ := C24_segment_shows_the_same_partial (src.env num ⟨wb, some we⟩) hg.rd hbase src.avail
        hg.avail src.root hg.sane hg.shaped hg.unmixed hg.wellTimed hg.inMs hg.availMs
        (by
          intro t ht
          rcases ht with ht | ht
          · exact h0 t ht
          · simp only [Source.env, Option.some.injEq] at ht; omega)
        (.elem x kids) (by rw [validateDoc_eq, hx]) seg hseg
      rw [validateDoc_eq] at hsd
      injection hsd with hsd
      show shownContent (contentOf seg) t = _
      rw [← hbody.shown, hsd, hshow t, good_shownIn_eq hg.toSound, hx]
      rfl
  | error err =>
    refine ⟨by simp, ?_⟩
    intro t
    simp only
    by_cases ht : Win.at ⟨wb, some we⟩ t = true
    · rw [if_pos ht, good_shownIn_eq hg.toSound, hx]
      have hcov := cov_times (avail := src.avail) hg.sane hg.wellTimed
      rw [hx] at hcov
      by_cases ho : Overlaps ⟨wb, some we⟩ x.comp = true
      · have hwb : ∀ b, wb = some b → b < we := by
          intro b hb
          simp only [Win.at, hb, Bool.and_eq_true, decide_eq_true_eq] at ht
          omega
        obtain ⟨o, hnode⟩ := segNode_exists (src.env num ⟨wb, some we⟩) wb we rfl hwb
          (by
            rcases hg.base with hb | ⟨hb, h1⟩
            · exact .inl hb
            · exact .inr ⟨hb, by omega⟩) (.elem x kids)
          (fun anc y ys hr hz => hg.refs (.elem x kids) wb we (by rw [validateDoc_eq, hx]) hwb anc y ys hr hz)
        rcases segment_of_node hnode hk ho with ⟨seg, hok⟩ | ⟨a, rfl, hka⟩
        · rw [hok] at hseg; cases hseg
        · exact (empty_shown hcov hsh (by rw [her]; exact hg.unmixed) hka hnode ht).symm
      · rw [Bool.not_eq_true] at ho
        exact (not_overlaps_shown hcov rfl ho ht).symm
    · rw [if_neg ht]; rfl

/-! ### The windows of a sequence -/

theorem windows_cons (s : Seq.State) (hi cur : Option Int) (x : Seq.Doc) (xs : List Seq.Doc) :
    Seq.windows s cur hi (x :: xs) = (Seq.resolvedEnd s x).bind (fun r =>
      (Seq.windows s (Seq.winEnd hi r) hi xs).map (fun rest => (x, cur, Seq.winEnd hi r) :: rest)) := by
  rw [Seq.windows]
  cases hr : Seq.resolvedEnd s x with
  | none => rfl
  | some r =>
    rw [Option.bind_some]
    show (match Seq.windows s (Seq.winEnd hi r) hi xs with | none => none | some rest => some ((x, cur, Seq.winEnd hi r) :: rest)) = _
    cases Seq.windows s (Seq.winEnd hi r) hi xs <;> rfl

theorem windows_ends {s : Seq.State} {hi : Option Int} : ∀ (xs : List Seq.Doc) (cur : Option Int)
    (ws : List (Seq.Doc × Option Int × Option Int)), Seq.windows s cur hi xs = some ws →
    ∀ w ∈ ws, ∃ r, Seq.resolvedEnd s w.1 = some r ∧ w.2.2 = Seq.winEnd hi r
  | [], cur, ws, h => by
    simp only [Seq.windows, Option.some.injEq] at h
    subst h
    simp
  | x :: xs, cur, ws, h => by
    rw [windows_cons] at h
    cases hr : Seq.resolvedEnd s x with
    | none => rw [hr] at h; simp at h
    | some r =>
      rw [hr, Option.bind_some, Option.map_eq_some_iff] at h
      obtain ⟨rest, hws, rfl⟩ := h
      intro w hw
      rw [List.mem_cons] at hw
      rcases hw with rfl | hw
      · exact ⟨r, hr, rfl⟩
      · exact windows_ends xs _ rest hws w hw

theorem consecutive_begin : ∀ {lo : Option Int} {ws : List (Seq.Doc × Option Int × Option Int)}, Seq.Consecutive lo ws →
    ∀ w ∈ ws, w.2.1 = lo ∨ ∃ w' ∈ ws, w.2.1 = w'.2.2
  | lo, [], _, w, hw => by simp at hw
  | lo, x :: ws, h, w, hw => by
    rw [List.mem_cons] at hw
    rcases hw with rfl | hw
    · exact .inl h.1
    · rcases consecutive_begin h.2 w hw with h1 | ⟨w', hw', h1⟩
      · exact .inr ⟨x, List.mem_cons_self, h1⟩
      · exact .inr ⟨w', List.mem_cons_of_mem _ hw', h1⟩

theorem filterMap_flatten {α β γ : Type} (f : α → Option β) (g : β → List γ) : ∀ (ws : List α),
    ((ws.filterMap f).map g).flatten = (ws.map (fun w => (f w).elim [] g)).flatten
  | [] => rfl
  | w :: ws => by
    have ih := filterMap_flatten f g ws
    cases hf : f w with
    | none => rw [List.filterMap_cons_none hf, ih, List.map_cons, List.flatten_cons, hf]; rfl
    | some b => rw [List.filterMap_cons_some hf, List.map_cons, List.flatten_cons, ih, List.map_cons, List.flatten_cons, hf]; rfl

theorem flatten_one {α γ : Type} (p : α → Bool) (g : α → List γ) (x : List γ) : ∀ (ws : List α),
    ws.Pairwise (fun a b => ¬(p a = true ∧ p b = true)) → (∀ w ∈ ws, p w = true → g w = x) →
    (x ≠ [] → ∃ w ∈ ws, p w = true) → (ws.map (fun w => if p w then g w else [])).flatten = x
  | [], _, _, h => by
    cases x with
    | nil => rfl
    | cons a x => obtain ⟨w, hw, _⟩ := h (by simp); simp at hw
  | w :: ws, hp, hg, h => by
    rw [List.pairwise_cons] at hp
    rw [List.map_cons, List.flatten_cons]
    by_cases hw : p w = true
    · have hrest : (ws.map (fun w => if p w then g w else [])).flatten = [] := by
        rw [List.flatten_eq_nil_iff]
        intro l hl
        rw [List.mem_map] at hl
        obtain ⟨w', hw', rfl⟩ := hl
        rw [if_neg]
        exact fun hpw => hp.1 w' hw' ⟨hw, hpw⟩
      rw [hrest, if_pos hw, List.append_nil]
      exact hg w List.mem_cons_self hw
    · rw [if_neg hw, List.nil_append]
      refine flatten_one p g x ws hp.2 (fun w' hw' => hg w' (List.mem_cons_of_mem _ hw')) ?_
      intro hx
      obtain ⟨w', hw', hpw⟩ := h hx
      rw [List.mem_cons] at hw'
      rcases hw' with rfl | hw'
      · exact absurd hpw hw
      · exact ⟨w', hw', hpw⟩

theorem earliest_cases (a b : Option Int) : Seq.earliest a b = a ∨ Seq.earliest a b = b := by
  cases a with
  | none => exact .inr rfl
  | some a => cases b with
    | none => exact .inl rfl
    | some b =>
      simp only [Seq.earliest, Option.some.injEq]
      omega

/-- The bounds of the windows are whole milliseconds and every window has an end. -/
theorem window_bounds {cfg : Seq.Cfg} {agid : Option String} {s : Seq.State} {log : List Seq.Doc}
    (h : Seq.Reach cfg agid s log) (src : Seq.Doc → Source) (lo hi : Option Int) (top : Int)
    (hlo : ∀ b, lo = some b → b % 1000 = 0) (hhi : ∀ e, hi = some e → e ≤ top ∧ e % 1000 = 0)
    (hopen : hi = none → ∀ d ∈ s.docs, ∃ e, Seq.resolvedEnd s d = some (some e) ∧ e ≤ top)
    (hg : ∀ d ∈ s.docs, (src d).Sound d top) {ws : List (Seq.Doc × Option Int × Option Int)}
    (hws : Seq.extractWindows s lo hi = some ws) (hcons : Seq.Consecutive lo ws) (hwd : ∀ w ∈ ws, w.1 ∈ s.docs)
    (hin : ∀ w ∈ ws, ∀ e, hi = some e → ∃ e', w.2.2 = some e' ∧ e' ≤ e) :
    ∀ w ∈ ws, (∀ b, w.2.1 = some b → b % 1000 = 0) ∧ ∃ we, w.2.2 = some we ∧ we ≤ top ∧ we % 1000 = 0 := by
  have hends := windows_ends _ _ ws hws
  -- the windows' bounds
  have hdms : ∀ d ∈ s.docs, d.cbegin % 1000 = 0 ∧ ∀ e, d.cend = some e → e % 1000 = 0 := by
    intro d hd
    obtain ⟨x, kids, hx, _, hb, he, _⟩ := good_body (hg d hd)
    have := times_whole (hg d hd).availMs (src d).root 0 none (by simp) (by simp) (hg d hd).inMs x kids hx
    rw [hb, he]
    exact this
  have hendms : ∀ w ∈ ws, ∀ e, w.2.2 = some e → e % 1000 = 0 := by
    intro w hw e he
    obtain ⟨r, hr, hwe⟩ := hends w hw
    have hr' := (Seq.C04_resolved_times h w.1 (hwd w hw)).2
    rw [hr] at hr'
    injection hr' with hr'
    have hrms : ∀ y, r = some y → y % 1000 = 0 := by
      intro y hy
      rcases earliest_cases w.1.cend ((Seq.nextDoc s.docs w.1).map (·.cbegin)) with hc | hc
      · rw [hr', hc] at hy
        exact (hdms w.1 (hwd w hw)).2 y hy
      · rw [hr', hc, Option.map_eq_some_iff] at hy
        obtain ⟨n, hn, rfl⟩ := hy
        unfold Seq.nextDoc at hn
        exact (hdms n (List.mem_of_find?_eq_some hn)).1
    rw [hwe] at he
    unfold Seq.winEnd at he
    cases hhh : hi with
    | none => rw [hhh] at he; exact hrms e he
    | some c =>
      have hc := (hhi c hhh).2
      cases hrr : r with
      | none => rw [hhh, hrr] at he; simp at he; omega
      | some y =>
        have := hrms y hrr
        rw [hhh, hrr] at he
        simp only at he
        split at he <;> simp at he <;> omega
  intro w hw
  have hend : ∃ we, w.2.2 = some we ∧ we ≤ top ∧ we % 1000 = 0 := by
    cases hhh : hi with
    | none =>
      obtain ⟨r, hr, hwe⟩ := hends w hw
      obtain ⟨e, he, hle⟩ := hopen hhh w.1 (hwd w hw)
      rw [hr] at he
      injection he with he
      rw [hhh, he] at hwe
      exact ⟨e, hwe, hle, hendms w hw e hwe⟩
    | some c =>
      obtain ⟨we, hwe, hle⟩ := hin w hw c hhh
      have := (hhi c hhh).1
      exact ⟨we, hwe, by omega, hendms w hw we hwe⟩
  refine ⟨?_, hend⟩
  intro b hb
  rcases consecutive_begin hcons w hw with hc | ⟨w', hw', hc⟩
  · exact hlo b (by rw [← hc]; exact hb)
  · exact hendms w' hw' b (by rw [← hc]; exact hb)

/-- The windows of an extraction: one for each document concerned, with whole bounds; and what the
documents have to say, each in its window, is at each instant of the range what the document active at
that instant has to say. -/
theorem extract_active {γ : Type} {cfg : Seq.Cfg} {agid : Option String} {s : Seq.State} {log : List Seq.Doc}
    (h : Seq.Reach cfg agid s log) (src : Seq.Doc → Source) (lo hi : Option Int) (top : Int)
    (hlo : ∀ b, lo = some b → b % 1000 = 0) (hhi : ∀ e, hi = some e → e ≤ top ∧ e % 1000 = 0)
    (hlh : ∀ b e, lo = some b → hi = some e → b ≤ e)
    (hopen : hi = none → ∀ d ∈ s.docs, ∃ e, Seq.resolvedEnd s d = some (some e) ∧ e ≤ top)
    (hg : ∀ d ∈ s.docs, (src d).Sound d top) (f : Seq.Doc → Int → List γ)
    (hf : ∀ d ∈ s.docs, ∀ t, (t < d.cbegin ∨ ∃ e, d.cend = some e ∧ e ≤ t) → f d t = []) :
    ∃ ws, Seq.extractWindows s lo hi = some ws ∧
      (∀ w ∈ ws, w.1 ∈ s.docs ∧ (∀ b, w.2.1 = some b → b % 1000 = 0) ∧ ∃ we, w.2.2 = some we ∧ we ≤ top ∧ we % 1000 = 0) ∧
      ∀ t, (Win.at ⟨lo, hi⟩ t = true →
          (∀ a, Seq.ActiveAt s a t → (ws.map (fun w => if Win.at ⟨w.2.1, w.2.2⟩ t then f w.1 t else [])).flatten = f a t) ∧
          ((∀ a, ¬ Seq.ActiveAt s a t) → (ws.map (fun w => if Win.at ⟨w.2.1, w.2.2⟩ t then f w.1 t else [])).flatten = [])) ∧
        (Win.at ⟨lo, hi⟩ t = false → (ws.map (fun w => if Win.at ⟨w.2.1, w.2.2⟩ t then f w.1 t else [])).flatten = []) := by
  obtain ⟨ws, hws, hcons, hfst, hin, hpw, hact⟩ := Seq.C12_windows h lo hi hlh
  have hwd : ∀ w ∈ ws, w.1 ∈ s.docs := by
    intro w hw
    have : w.1 ∈ ws.map (·.1) := List.mem_map_of_mem hw
    rw [hfst, List.mem_filter] at this
    exact this.1
  have hends := windows_ends _ _ ws hws
  have hbd := window_bounds h src lo hi top hlo hhi hopen hg hws hcons hwd (fun w hw => (hin w hw).2)
  have hat : ∀ w ∈ ws, ∀ t, Win.at ⟨w.2.1, w.2.2⟩ t = true ↔ Seq.InWindow w t := by
    intro w hw t
    unfold Win.at Seq.InWindow
    cases w.2.1 <;> cases w.2.2 <;> simp
  have hdisj : ∀ t, ws.Pairwise (fun a b => ¬((Win.at ⟨a.2.1, a.2.2⟩ t = true) ∧ (Win.at ⟨b.2.1, b.2.2⟩ t = true))) := by
    intro t
    refine hpw.imp ?_
    rintro a b ⟨e, c, he, hc, hle⟩ ⟨h1, h2⟩
    simp only [Win.at, he, hc, Bool.and_eq_true, decide_eq_true_eq] at h1 h2
    omega
  refine ⟨ws, hws, fun w hw => ⟨hwd w hw, hbd w hw⟩, ?_⟩
  intro t
  refine ⟨?_, ?_⟩
  · intro hwt
    have hwt' : (∀ b, lo = some b → b ≤ t) ∧ ∀ e, hi = some e → t < e := by
      unfold Win.at at hwt
      cases lo <;> cases hi <;> simp_all
    constructor
    · intro a ha
      obtain ⟨⟨w, hw, hwa, hwt⟩, honly⟩ := hact t a hwt'.1 hwt'.2 ha
      refine flatten_one (fun w => Win.at ⟨w.2.1, w.2.2⟩ t) (fun w => f w.1 t) _ ws (hdisj t) ?_ ?_
      · intro w' hw' hp
        rw [honly w' hw' ((hat w' hw' t).mp hp)]
      · exact fun _ => ⟨w, hw, (hat w hw t).mpr hwt⟩
    · intro hno
      refine flatten_one (fun w => Win.at ⟨w.2.1, w.2.2⟩ t) (fun w => f w.1 t) [] ws (hdisj t) ?_ (fun hx => absurd rfl hx)
      intro w hw hp
      have hin' := (hat w hw t).mp hp
      apply hf w.1 (hwd w hw)
      by_cases hb : t < w.1.cbegin
      · exact .inl hb
      · exfalso
        obtain ⟨r, hr, hwe⟩ := hends w hw
        refine hno w.1 ⟨hwd w hw, w.1.cbegin, (Seq.C04_resolved_times h w.1 (hwd w hw)).1, by omega, r, hr, ?_⟩
        intro y hy
        rw [hy] at hwe
        unfold Seq.winEnd at hwe
        split at hwe
        · exact hin'.2 _ hwe
        · simp only at hwe
          split at hwe
          · have := hin'.2 _ hwe; omega
          · exact hin'.2 _ hwe
  · intro hout
    refine flatten_one (fun w => Win.at ⟨w.2.1, w.2.2⟩ t) (fun w => f w.1 t) [] ws (hdisj t) ?_ (fun hx => absurd rfl hx)
    intro w hw hp
    exfalso
    have hin' := (hat w hw t).mp hp
    obtain ⟨h1, h2⟩ := hin w hw
    have h1 : ∀ b, lo = some b → b ≤ t := by
      intro b hb
      obtain ⟨b', hb', hle⟩ := h1 b hb
      have := hin'.1 b' hb'
      omega
    have h2 : ∀ e, hi = some e → t < e := by
      intro e he
      obtain ⟨e', he', hle⟩ := h2 e he
      have := hin'.2 e' he'
      omega
    unfold Win.at at hout
    cases lo <;> cases hi <;> simp_all

/-- C28.  For every reachable sequence and every window, open or not: extracting it succeeds, and the
document returned shows at each instant of the window exactly what the document active at that instant
shows, nothing where no document is active, and nothing outside the window.  Assumes of the held
documents what `Source.Good` lists and, for a window without an end, that no held document lasts for ever
(`C28_false_open_end`). -/
theorem C28_resegmented_shows_active_partial {cfg : Seq.Cfg} {agid : Option String} {s : Seq.State} {log : List Seq.Doc}
    (h : Seq.Reach cfg agid s log) (src : Seq.Doc → Source) (lo hi : Option Int) (top : Int)
    (hlo : ∀ b, lo = some b → b % 1000 = 0) (hhi : ∀ e, hi = some e → e ≤ top ∧ e % 1000 = 0)
    (hlh : ∀ b e, lo = some b → hi = some e → b ≤ e)
    (hopen : hi = none → ∀ d ∈ s.docs, ∃ e, Seq.resolvedEnd s d = some (some e) ∧ e ≤ top)
    (hg : ∀ d ∈ s.docs, (src d).Good d top) :
    ∃ out, extractSegment s src lo hi = some out ∧
      ∀ t, (Win.at ⟨lo, hi⟩ t = true → (∀ a, Seq.ActiveAt s a t → shownBy out t = shownIn (src a) t) ∧
          ((∀ a, ¬ Seq.ActiveAt s a t) → shownBy out t = [])) ∧
        (Win.at ⟨lo, hi⟩ t = false → shownBy out t = []) := by
  obtain ⟨ws, hws, hbd, hact⟩ := extract_active h src lo hi top hlo hhi hlh hopen (fun d hd => (hg d hd).toSound)
    (fun d t => shownIn (src d) t) (fun d hd t ht => good_shown_outside (hg d hd).toSound ht)
  have hseg : ∀ w ∈ ws, (∀ sd, segmentOf (src w.1) w.1.num ⟨w.2.1, w.2.2⟩ = some sd → SegBody sd.body) ∧
      ∀ t, (segmentOf (src w.1) w.1.num ⟨w.2.1, w.2.2⟩).elim [] (fun sd => shownContent (contentOf sd.body) t) =
        if Win.at ⟨w.2.1, w.2.2⟩ t then shownIn (src w.1) t else [] := by
    intro w hw
    obtain ⟨hwd, h1, we, h2, h3, h4⟩ := hbd w hw
    rw [h2]
    exact segmentOf_shown (hg w.1 hwd) w.1.num h1 h3 h4
  have hshow : ∀ t, shownBy (splice (ws.filterMap (fun w => segmentOf (src w.1) w.1.num ⟨w.2.1, w.2.2⟩))) t =
      (ws.map (fun w => if Win.at ⟨w.2.1, w.2.2⟩ t then shownIn (src w.1) t else [])).flatten := by
    intro t
    rw [splice_shown, filterMap_flatten]
    · congr 1
      apply List.map_congr_left
      intro w hw
      exact (hseg w hw).2 t
    · intro sd hsd
      rw [List.mem_filterMap] at hsd
      obtain ⟨w, hw, he⟩ := hsd
      exact (hseg w hw).1 sd he
  refine ⟨_, by rw [extractSegment, hws]; rfl, ?_⟩
  intro t
  rw [hshow t]
  exact hact t

/-- C28 for a window with both bounds. -/
theorem resegmented_closed {cfg : Seq.Cfg} {agid : Option String} {s : Seq.State} {log : List Seq.Doc}
    (h : Seq.Reach cfg agid s log) (src : Seq.Doc → Source) (lo hi : Int) (hlh : lo ≤ hi)
    (hms : lo % 1000 = 0 ∧ hi % 1000 = 0) (hg : ∀ d ∈ s.docs, (src d).Good d hi) :
    ∃ out, extractSegment s src (some lo) (some hi) = some out ∧
      ∀ t, (lo ≤ t ∧ t < hi → (∀ a, Seq.ActiveAt s a t → shownBy out t = shownIn (src a) t) ∧
          ((∀ a, ¬ Seq.ActiveAt s a t) → shownBy out t = [])) ∧
        (¬(lo ≤ t ∧ t < hi) → shownBy out t = []) := by
  obtain ⟨out, hout, hshow⟩ := C28_resegmented_shows_active_partial h src (some lo) (some hi) hi
    (by intro b hb; injection hb with hb; omega) (by intro e he; injection he with he; omega)
    (by intro b e hb he; injection hb with hb; injection he with he; omega) (by intro hc; simp at hc) hg
  refine ⟨out, hout, fun t => ?_⟩
  have := hshow t
  simp only [Win.at, Bool.and_eq_true, decide_eq_true_eq, Bool.and_eq_false_iff, decide_eq_false_iff_not] at this
  refine ⟨this.1, fun hn => this.2 ?_⟩
  omega

/-! ### Example: the second document replaces the first at 5 s -/

def exTree (b e : Nat) (text : String) : Node Att :=
  .elem { kind := .body } [.elem { kind := .div } [
    .elem { kind := .p, id := some "p".toList, beg := sec b, fin := sec e, style := ["s".toList] } [.text text.toList]]]

def exSource (root : Node Att) : Source :=
  { root := root, avail := 0, base := .media, rd := Time.exactReader, ref := fun _ x => some x, styles := fun _ => none, regions := fun _ => none }

def exHeld : List Seq.Doc := [Seq.mk 1 1 1000000 (some 9000000), Seq.mk 2 2 5000000 (some 8000000)]

def exSrc (d : Seq.Doc) : Source := exSource (if d.num = 1 then exTree 1 9 "one" else exTree 5 8 "two")

theorem exSource_good {root : Node Att} {d : Seq.Doc} (h1 : Sane root) (h2 : shaped root = true) (h3 : unmixed root = true)
    (h4 : wellTimed root = true) (h5 : inMs root = true)
    (h6 : ∃ x kids, validateDoc 0 root = .ok (.elem x kids) ∧ d.cbegin = x.comp.b ∧ d.cend = x.comp.e) (hi : Int) :
    (exSource root).Good d hi :=
  ⟨⟨Time.exactReader_accurate, Int.le_refl 0, rfl, h1, h2, h4, h5, .inl rfl,
    fun _ _ _ _ _ _ _ _ _ _ => ⟨fun _ _ => rfl, fun _ _ _ => rfl⟩, h6⟩, h3⟩

example : Seq.Reach Seq.exCfg none (Seq.run (Seq.State.init Seq.exCfg none) exHeld).1 exHeld.reverse ∧
    (Seq.run (Seq.State.init Seq.exCfg none) exHeld).1.docs = exHeld ∧
    (∀ d ∈ exHeld, (exSrc d).Good d 12000000) ∧
    (extractSegment (Seq.run (Seq.State.init Seq.exCfg none) exHeld).1 exSrc (some 2000000) (some 12000000)).map
        (fun out => [1999999, 2000000, 4999999, 5000000, 7999999, 8000000].map (fun t => shownBy out t)) =
      some [[], [[.text "one".toList]], [[.text "one".toList]], [[.text "two".toList]], [[.text "two".toList]], []] := by
  refine ⟨?_, by decide +kernel, ?_, by decide +kernel⟩
  · have := Seq.reach_run exHeld (Seq.Reach.init (cfg := Seq.exCfg) (agid := none)) (by
      intro d hd
      simp only [exHeld, List.mem_cons, List.not_mem_nil, or_false] at hd
      rcases hd with rfl | rfl <;> exact ⟨by simp [Seq.mk], by intro e he; simp [Seq.mk] at he ⊢; omega⟩)
      (by simp) (by decide) (by decide +kernel)
    simpa using this
  · intro d hd
    simp only [exHeld, List.mem_cons, List.not_mem_nil, or_false] at hd
    rcases hd with rfl | rfl
    · exact exSource_good (sane_of rfl (by decide) (by decide)) (by decide) (by decide) (by decide) (by decide)
        ⟨_, _, validateDoc_eq _ _, by decide +kernel, by decide +kernel⟩ _
    · exact exSource_good (sane_of rfl (by decide) (by decide)) (by decide) (by decide) (by decide) (by decide)
        ⟨_, _, validateDoc_eq _ _, by decide +kernel, by decide +kernel⟩ _

/-- The same sequence, extracted without a begin and without an end: both documents have an end. -/
example : (∀ d ∈ exHeld, ∃ e, Seq.resolvedEnd (Seq.run (Seq.State.init Seq.exCfg none) exHeld).1 d = some (some e) ∧ e ≤ 12000000) ∧
    (extractSegment (Seq.run (Seq.State.init Seq.exCfg none) exHeld).1 exSrc none none).map
        (fun out => [999999, 1000000, 4999999, 5000000, 7999999, 8000000].map (fun t => shownBy out t)) =
      some [[], [[.text "one".toList]], [[.text "one".toList]], [[.text "two".toList]], [[.text "two".toList]], []] := by
  refine ⟨?_, by decide +kernel⟩
  intro d hd
  simp only [exHeld, List.mem_cons, List.not_mem_nil, or_false] at hd
  rcases hd with rfl | rfl
  · exact ⟨5000000, by decide +kernel, by omega⟩
  · exact ⟨8000000, by decide +kernel, by omega⟩

/-- A document without an end. -/
def exForever : Node Att :=
  .elem { kind := .body } [.elem { kind := .div } [.elem { kind := .p, beg := sec 1, style := ["s".toList] } [.text "on".toList]]]

/-- A range without an end that reaches a document without an end: no end can be written for its paragraphs,
the error is logged, the document is left out, and the result is empty. -/
theorem C28_false_open_end : ∃ (s : Seq.State) (log : List Seq.Doc) (d : Seq.Doc) (src : Seq.Doc → Source),
    Seq.Reach Seq.exCfg none s log ∧ s.docs = [d] ∧ (∀ hi, (src d).Good d hi) ∧
    Seq.ActiveAt s d 2000000 ∧ shownIn (src d) 2000000 = [[.text "on".toList]] ∧
    (extractSegment s src (some 0) none).map (fun out => shownBy out 2000000) = some [] := by
  refine ⟨(Seq.run (Seq.State.init Seq.exCfg none) [Seq.mk 1 1 1000000 none]).1, [Seq.mk 1 1 1000000 none], Seq.mk 1 1 1000000 none,
    fun _ => exSource exForever, ?_, by decide +kernel, ?_, ?_, by decide +kernel, by decide +kernel⟩
  · have := Seq.reach_run [Seq.mk 1 1 1000000 none] (Seq.Reach.init (cfg := Seq.exCfg) (agid := none)) (by
      intro d hd
      simp only [List.mem_cons, List.not_mem_nil, or_false] at hd
      rw [hd]
      exact ⟨by simp [Seq.mk], by intro e he; simp [Seq.mk] at he⟩)
      (by simp) (by decide) (by decide +kernel)
    simpa using this
  · exact fun hi => exSource_good (sane_of rfl (by decide) (by decide)) (by decide) (by decide) (by decide) (by decide)
        ⟨_, _, validateDoc_eq _ _, by decide +kernel, by decide +kernel⟩ _
  · exact ⟨by decide +kernel, 1000000, by decide +kernel, by omega, none, by decide +kernel, by simp⟩

end Verif.Doc
