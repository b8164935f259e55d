import Verif.Doc.Lines
import Verif.Doc.ResegProps

/-! C97: lines stay lines. -/
namespace Verif.Doc

/-! ### Segments -/

theorem leafOk_times {avail : Int} (ha : 0 ≤ avail) (hams : avail % 1000 = 0) {root : Node Att} (hs : Sane root)
    (hsh : shaped root = true) (hw : wellTimed root = true) (hms : inMs root = true) : LeafOk (times avail 0 none root) := by
  intro anc x kids hr hl
  obtain ⟨h1, h2, h3⟩ := leaf_facts_reach ha hs hsh hw hr hl
  obtain ⟨h4, h5⟩ := h3 hms hams
  exact ⟨h1, h2, h4, h5⟩

theorem times_body {avail : Int} {root : Node Att} (hs : Sane root) :
    ∃ x kids, times avail 0 none root = .elem x kids ∧ x.att.kind = .body ∧ erase (.elem x kids) = root := by
  obtain ⟨v', hv', her, _⟩ := C14_computed_times_partial avail root hs
  rw [validateDoc_eq] at hv'
  injection hv' with hv'
  obtain ⟨a0, ks0, hroot, hbody⟩ := hs.body
  have hx : ∃ x kids, times avail 0 none root = .elem x kids ∧ x.att.kind = .body := by
    rw [hroot]; exact ⟨_, _, rfl, hbody⟩
  obtain ⟨x, kids, hx, hk⟩ := hx
  exact ⟨x, kids, hx, hk, by rw [← hx, hv']; exact her⟩

/-- Both readings of the property at once. -/
theorem segment_reads (v : Env) (hrd : v.rd.Accurate) (hbase : v.base ≠ .smpte) (avail : Int)
    (ha : 0 ≤ avail) (root : Node Att) (hs : Sane root) (hsh : shaped root = true) (exact : Bool) (hl : lined exact root = true)
    (hw : wellTimed root = true) (hms : inMs root = true) (hams : avail % 1000 = 0)
    (hwms : ∀ t, v.win.b = some t ∨ v.win.e = some t → t % 1000 = 0)
    (hshort : v.base = .clock ∨ ∃ we, v.win.e = some we ∧ we < 100 * 3600000000)
    (doc : Node Lab) (hdoc : validateDoc avail root = .ok doc) (seg : Node Att) (hseg : segment v doc = .ok seg) :
    ∃ segdoc, validateDoc 0 seg = .ok segdoc ∧
      ∀ t, (linesAt t segdoc).map (List.filter (keep exact)) =
        if v.win.at t then (linesAt t doc).map (List.filter (keep exact)) else [] := by
  refine ⟨_, validateDoc_eq 0 seg, ?_⟩
  rw [validateDoc_eq] at hdoc
  injection hdoc with hdoc
  obtain ⟨x, kids, hx, hk, her⟩ := times_body (avail := avail) hs
  have hcov := cov_times (avail := avail) hs hw
  have hlf := leafOk_times ha hams hs hsh hw hms
  rw [← hdoc] at hseg ⊢
  rw [hx] at hseg hcov hlf ⊢
  intro t
  exact segment_lines ⟨hrd, hbase, hwms, hshort⟩ exact t hk (by rw [her]; exact hsh) (by rw [her]; exact hl) hcov hlf hseg

/-- **C97**  A segment, validated as a document of its own, shows of every paragraph at every instant of
the window exactly the pieces of text and line breaks that the document shows of it, in the same order,
and outside the window nothing.  `linesAt` leaves out paragraphs that have nothing to read at the time.
Missing: elements with text beside spans (`C97_false_mixed`), spans of white space only
(`C97_false_blank_span`), and from a hundred hours on (`C97_false_hundred_hours`). -/
theorem C97_segment_lines_partial (v : Env) (hrd : v.rd.Accurate) (hbase : v.base ≠ .smpte) (avail : Int)
    (ha : 0 ≤ avail) (root : Node Att) (hs : Sane root) (hsh : shaped root = true) (hl : lined true root = true)
    (hw : wellTimed root = true) (hms : inMs root = true) (hams : avail % 1000 = 0)
    (hwms : ∀ t, v.win.b = some t ∨ v.win.e = some t → t % 1000 = 0)
    (hshort : v.base = .clock ∨ ∃ we, v.win.e = some we ∧ we < 100 * 3600000000)
    (doc : Node Lab) (hdoc : validateDoc avail root = .ok doc) (seg : Node Att) (hseg : segment v doc = .ok seg) :
    ∃ segdoc, validateDoc 0 seg = .ok segdoc ∧
      ∀ t, linesAt t segdoc = if v.win.at t then linesAt t doc else [] := by
  obtain ⟨segdoc, h1, h2⟩ := segment_reads v hrd hbase avail ha root hs hsh true hl hw hms hams hwms hshort doc hdoc seg hseg
  refine ⟨segdoc, h1, fun t => ?_⟩
  have hid : List.filter (keep true) = id := by funext l; exact keep_true l
  have := h2 t
  rw [hid, List.map_id, List.map_id] at this
  exact this

/-- **C97** with spans of white space allowed: then the pieces of text that are more than white space,
and the line breaks, stay the same. -/
theorem C97_segment_words_partial (v : Env) (hrd : v.rd.Accurate) (hbase : v.base ≠ .smpte) (avail : Int)
    (ha : 0 ≤ avail) (root : Node Att) (hs : Sane root) (hsh : shaped root = true) (hl : lined false root = true)
    (hw : wellTimed root = true) (hms : inMs root = true) (hams : avail % 1000 = 0)
    (hwms : ∀ t, v.win.b = some t ∨ v.win.e = some t → t % 1000 = 0)
    (hshort : v.base = .clock ∨ ∃ we, v.win.e = some we ∧ we < 100 * 3600000000)
    (doc : Node Lab) (hdoc : validateDoc avail root = .ok doc) (seg : Node Att) (hseg : segment v doc = .ok seg) :
    ∃ segdoc, validateDoc 0 seg = .ok segdoc ∧
      ∀ t, wordsAt t segdoc = if v.win.at t then wordsAt t doc else [] :=
  segment_reads v hrd hbase avail ha root hs hsh false hl hw hms hams hwms hshort doc hdoc seg hseg

/-- Two lines that appear one after the other, with a line break between them, and a paragraph of two
lines in one span. -/
def linesDoc : Node Att :=
  .elem { kind := .body } [
    .elem { kind := .div, beg := sec 1 } [
      .elem { kind := .p, id := some "p1".toList, region := some "r1".toList } [
        .elem { kind := .span, beg := sec 1, fin := sec 6 } [.text "- Hello".toList],
        .br,
        .elem { kind := .span, style := ["s".toList] } [.elem { kind := .span, beg := sec 2, fin := sec 5 } [.text "- Who?".toList]]],
      .elem { kind := .p, id := some "p2".toList, beg := sec 4, fin := sec 8 } [.text "one".toList, .br, .text "two".toList]]]

theorem linesDoc_sane : Sane linesDoc := sane_of rfl (by decide) (by decide)

/-- The hypotheses hold of it, `unmixed` does not; and what is read at 2.5s, 4s and 5.2s of the segment
of `[2s, 5.5s)` and of the document. -/
example : Sane linesDoc ∧ shaped linesDoc = true ∧ lined true linesDoc = true ∧ unmixed linesDoc = false ∧
    wellTimed linesDoc = true ∧ inMs linesDoc = true ∧
    ((validateDoc 0 linesDoc).toOption.bind (fun d => (segment (exEnv 2000000 5500000) d).toOption.bind (fun s =>
      (validateDoc 0 s).toOption.map (fun sd => ([2500000, 4000000, 5200000].map (fun t => (linesAt t d, linesAt t sd))))))) =
    some [([[.text "- Hello".toList, .br]], [[.text "- Hello".toList, .br]]),
      ([[.text "- Hello".toList, .br, .text "- Who?".toList]], [[.text "- Hello".toList, .br, .text "- Who?".toList]]),
      ([[.text "- Hello".toList, .br, .text "- Who?".toList], [.text "one".toList, .br, .text "two".toList]],
        [[.text "- Hello".toList, .br, .text "- Who?".toList], [.text "one".toList, .br, .text "two".toList]])] :=
  ⟨linesDoc_sane, by decide, by decide, by decide, by decide, by decide, by decide +kernel⟩

/-- A span of white space is discarded from a segment, and the words beside it are glued together. -/
theorem C97_false_blank_span : ∃ root, Sane root ∧ shaped root = true ∧ lined false root = true ∧ wellTimed root = true ∧
    ∃ doc seg segdoc, validateDoc 0 root = .ok doc ∧ segment (exEnv 0 5000000) doc = .ok seg ∧ validateDoc 0 seg = .ok segdoc ∧
      linesAt 2000000 doc = [[.text "Hello".toList, .text " ".toList, .text "world".toList]] ∧
      linesAt 2000000 segdoc = [[.text "Hello".toList, .text "world".toList]] := by
  refine ⟨.elem { kind := .body } [.elem { kind := .div } [
      .elem { kind := .p, beg := sec 1, fin := sec 4 } [
        .elem { kind := .span, style := ["s".toList] } [.text "Hello".toList],
        .elem { kind := .span } [.text " ".toList],
        .elem { kind := .span } [.text "world".toList]]]],
    sane_of rfl (by decide) (by decide), by decide, by decide, by decide, _, _, _, validateDoc_eq _ _, rfl, validateDoc_eq _ _,
    by decide +kernel, by decide +kernel⟩

/-- Text beside a timed span: in a segment the paragraph lasts only as long as its span, so the text is
gone where the span is not shown. -/
theorem C97_false_mixed : ∃ root, Sane root ∧ shaped root = true ∧ wellTimed root = true ∧
    ∃ doc seg segdoc, validateDoc 0 root = .ok doc ∧ segment (exEnv 0 9000000) doc = .ok seg ∧ validateDoc 0 seg = .ok segdoc ∧
      linesAt 2000000 doc = [[.text "who".toList]] ∧ linesAt 2000000 segdoc = [] := by
  refine ⟨.elem { kind := .body } [.elem { kind := .div } [
      .elem { kind := .p, beg := sec 1, fin := sec 8 } [
        .text "who".toList,
        .elem { kind := .span, beg := sec 3, fin := sec 5 } [.text "me".toList]]]],
    sane_of rfl (by decide) (by decide), by decide, by decide, _, _, _, validateDoc_eq _ _, rfl, validateDoc_eq _ _,
    by decide +kernel, by decide +kernel⟩

/-- The times of a segment that passes a hundred hours are compared as text, `"99:…" > "100:…"`: the
second line's span is taken to end before it begins, the paragraph to end with the first line, and the
second line is not shown. -/
theorem C97_false_hundred_hours : ∃ root, Sane root ∧ shaped root = true ∧ lined true root = true ∧ wellTimed root = true ∧
    ∃ doc seg segdoc, validateDoc 0 root = .ok doc ∧ segment (exEnv 0 400000000000) doc = .ok seg ∧ validateDoc 0 seg = .ok segdoc ∧
      linesAt 358000000000 doc = [[.br, .text "two".toList]] ∧ linesAt 358000000000 segdoc = [] := by
  refine ⟨.elem { kind := .body } [.elem { kind := .div } [
      .elem { kind := .p } [
        .elem { kind := .span, beg := sec 10, fin := sec 20 } [.text "one".toList],
        .br,
        .elem { kind := .span, beg := sec 356400, fin := sec 360000 } [.text "two".toList]]]],
    sane_of rfl (by decide) (by decide), by decide, by decide, by decide, _, _, _, validateDoc_eq _ _, rfl, validateDoc_eq _ _,
    by decide +kernel, by decide +kernel⟩

/-! ### Documents extracted from a sequence -/

/-- What is read of a returned document at `t`. -/
def linesBy (out : Option SDoc) (t : Int) : List (List Item) :=
  match out with
  | none => []
  | some d =>
    match validateDoc 0 d.body with
    | .error _ => []
    | .ok doc => linesAt t doc

/-- What is read of a held document at `t`. -/
def linesIn (src : Source) (t : Int) : List (List Item) :=
  match validateDoc src.avail src.root with
  | .error _ => []
  | .ok doc => linesAt t doc

/-- What is read of content validated on its own. -/
def linesContent (ns : List (Node Att)) (t : Int) : List (List Item) := linesAtL t (timesL 0 0 none ns)

theorem linesContent_append (a b : List (Node Att)) (t : Int) : linesContent (a ++ b) t = linesContent a t ++ linesContent b t := by
  unfold linesContent
  rw [timesL_append, linesAtL_append]

/-- The same times, whatever the identifiers. -/
def sameTimes (a b : Node Lab) : Prop := match a, b with
  | .elem x _, .elem y _ => y.comp = x.comp ∧ y.att = { x.att with id := none }
  | .text s, .text s' => s' = s
  | .br, .br => True
  | _, _ => False

theorem ownEnd_id (avail sync : Int) (bound : Option Int) (a : Att) :
    ownEnd avail sync bound { a with id := none } = ownEnd avail sync bound a := rfl

mutual
theorem read_plain (avail : Int) (t : Int) : ∀ (n : Node Att) (sync : Int) (bound : Option Int),
    sameTimes (times avail sync bound n) (times avail sync bound (plain n)) ∧
    readAt t (times avail sync bound (plain n)) = readAt t (times avail sync bound n) ∧
    linesAt t (times avail sync bound (plain n)) = linesAt t (times avail sync bound n)
  | .text s, _, _ => ⟨rfl, rfl, rfl⟩
  | .br, _, _ => ⟨trivial, rfl, rfl⟩
  | .elem a kids, sync, bound => by
    obtain ⟨h1, h2, h3⟩ := readL_plain avail t kids (sync + (eff a.beg).getD 0) (below (ownEnd avail sync bound a) bound)
    simp only [plain, times, ownEnd_id, compOf_id]
    rw [h1]
    refine ⟨⟨rfl, rfl⟩, ?_, ?_⟩
    · simp only [readAt, h2]
    · simp only [linesAt, readAt, h2, h3]
theorem readL_plain (avail : Int) (t : Int) : ∀ (ns : List (Node Att)) (sync : Int) (bound : Option Int),
    timedKids (timesL avail sync bound (plainL ns)) = timedKids (timesL avail sync bound ns) ∧
    readAtL t (timesL avail sync bound (plainL ns)) = readAtL t (timesL avail sync bound ns) ∧
    linesAtL t (timesL avail sync bound (plainL ns)) = linesAtL t (timesL avail sync bound ns)
  | [], _, _ => ⟨rfl, rfl, rfl⟩
  | k :: ks, sync, bound => by
    obtain ⟨h0, h1, h2⟩ := read_plain avail t k sync bound
    obtain ⟨h3, h4, h5⟩ := readL_plain avail t ks sync bound
    refine ⟨?_, by simp only [plainL, timesL, readAtL, h1, h4], by simp only [plainL, timesL, linesAtL, h2, h5]⟩
    simp only [plainL, timesL]
    generalize times avail sync bound k = x at h0
    generalize times avail sync bound (plain k) = y at h0
    cases x <;> cases y <;> simp only [sameTimes] at h0 <;> simp only [timedKids, h3]
    rw [h0.1, h0.2]
    rfl
end

theorem linesContent_plain (ns : List (Node Att)) (t : Int) : linesContent (plainL ns) t = linesContent ns t :=
  (readL_plain 0 t ns 0 none).2.2

theorem SegBody.lines {n : Node Att} (h : SegBody n) (t : Int) :
    linesAt t (times 0 0 none n) = linesContent (contentOf n) t := by
  obtain ⟨a, ha, hk, hc⟩ := h.elem
  generalize contentOf n = ks at *
  subst ha
  have hkp : a.kind ≠ .p := by rw [hk]; simp
  rcases hc with rfl | ⟨h1, h2, h3⟩
  · simp [times, timesL, linesAt, hkp, linesAtL, linesContent]
  · rw [times_untimed h1 h2 h3]
    simp [linesAt, hkp, linesContent]

/-- The spliced document reads like the segments, one after the other. -/
theorem splice_lines (segs : List SDoc) (h : ∀ d ∈ segs, SegBody d.body) (t : Int) :
    linesBy (splice segs) t = (segs.map (fun d => linesContent (contentOf d.body) t)).flatten := by
  have hcont : ∀ (l : List SDoc), linesContent ((l.map (fun d => plainL (contentOf d.body))).flatten) t =
      (l.map (fun d => linesContent (contentOf d.body) t)).flatten := by
    intro l
    induction l with
    | nil => rfl
    | cons d l ih => simp only [List.map_cons, List.flatten_cons]; rw [linesContent_append, ih, linesContent_plain]
  cases segs with
  | nil => rfl
  | cons d ds =>
    have hb : SegBody (ds.foldl mergeDoc ([], d)).2.body :=
      fold_body ds ([], d) (h d List.mem_cons_self) (fun d' hd' => h d' (List.mem_cons_of_mem _ hd'))
    have hc := C27_content_in_order (d :: ds) _ rfl
    unfold linesBy
    rw [splice]
    simp only [validateDoc_eq]
    rw [hb.lines, ← linesContent_plain, hc, hcont]

theorem linesIn_eq (src : Source) (t : Int) : linesIn src t = linesAt t (times src.avail 0 none src.root) := by
  unfold linesIn
  rw [validateDoc_eq]

/-- Nothing is read of a document outside its own computed interval. -/
theorem lines_outside {src : Source} {d : Seq.Doc} {hi : Int} (hg : src.Sound d hi) {t : Int}
    (ht : t < d.cbegin ∨ ∃ e, d.cend = some e ∧ e ≤ t) : linesIn src t = [] := by
  rw [linesIn_eq]
  obtain ⟨x, kids, hx, hk, hb, he, _⟩ := good_body hg
  have hcov := cov_times (avail := src.avail) hg.sane hg.wellTimed
  rw [hx] at hcov ⊢
  refine lines_inactive hcov ?_
  unfold Comp.at
  rw [Bool.and_eq_false_iff, ← hb, ← he]
  rcases ht with ht | ⟨e, hde, hle⟩
  · left; simpa using ht
  · right; rw [hde]; simpa using hle

/-- The segment of one document's window, which may be open at the front. -/
theorem segmentOf_lines {src : Source} {d : Seq.Doc} {hi : Int} (hg : src.Sound d hi) (exact : Bool)
    (hl : lined exact src.root = true) (hh : hi < 100 * 3600000000) (num : Nat) {wb : Option Int} {we : Int}
    (h0 : ∀ b, wb = some b → b % 1000 = 0) (hhi : we ≤ hi) (he : we % 1000 = 0) :
    (∀ sd, segmentOf src num ⟨wb, some we⟩ = some sd → SegBody sd.body) ∧
    ∀ t, (segmentOf src num ⟨wb, some we⟩).elim [] (fun sd => (linesContent (contentOf sd.body) t).map (List.filter (keep exact))) =
      if Win.at ⟨wb, some we⟩ t then (linesIn src t).map (List.filter (keep exact)) else [] := by
  obtain ⟨x, kids, hx, hk, _, _, her⟩ := good_body hg
  have hsh : shaped (erase (.elem x kids)) = true := by rw [her]; exact hg.shaped
  have hli : lined exact (erase (.elem x kids)) = true := by rw [her]; exact hl
  have hcov := cov_times (avail := src.avail) hg.sane hg.wellTimed
  have hlf := leafOk_times hg.avail hg.availMs hg.sane hg.shaped hg.wellTimed hg.inMs
  rw [hx] at hcov hlf
  have hbase : (src.env num ⟨wb, some we⟩).base ≠ .smpte := by
    intro hc
    have hc : src.base = .smpte := hc
    rcases hg.base with hb | ⟨hb, _⟩ <;> rw [hb] at hc <;> simp at hc
  have hv : WinFact (src.env num ⟨wb, some we⟩) := ⟨hg.rd, hbase, by
      intro t ht
      rcases ht with ht | ht
      · exact h0 t ht
      · simp only [Source.env, Option.some.injEq] at ht; omega, .inr ⟨we, rfl, by omega⟩⟩
  unfold segmentOf
  rw [validateDoc_eq, hx]
  simp only
  cases hseg : segment (src.env num ⟨wb, some we⟩) (.elem x kids) with
  | ok seg =>
    have hbody := segment_body hk hsh hseg
    refine ⟨?_, ?_⟩
    · intro sd hsd
      simp only [Option.some.injEq] at hsd
      rw [← hsd]
      exact hbody
    · intro t
      have := segment_lines hv exact t hk hsh hli hcov hlf hseg
      show (linesContent (contentOf seg) t).map _ = _
      rw [← hbody.lines, this, linesIn_eq, hx]
      rfl
  | error err =>
    refine ⟨by simp, ?_⟩
    intro t
    simp only
    by_cases ht : Win.at ⟨wb, some we⟩ t = true
    · rw [if_pos ht, linesIn_eq, hx]
      by_cases ho : Overlaps ⟨wb, some we⟩ x.comp = true
      · have hwb : ∀ b, wb = some b → b < we := by
          intro b hb
          simp only [Win.at, hb, Bool.and_eq_true, decide_eq_true_eq] at ht
          omega
        obtain ⟨o, hnode⟩ := segNode_exists (src.env num ⟨wb, some we⟩) wb we rfl hwb
          (by
            rcases hg.base with hb | ⟨hb, h1⟩
            · exact .inl hb
            · exact .inr ⟨hb, by omega⟩) (.elem x kids)
          (fun anc y ys hr hz => hg.refs (.elem x kids) wb we (by rw [validateDoc_eq, hx]) hwb anc y ys hr hz)
        rcases segment_of_node hnode hk ho with ⟨seg, hok⟩ | ⟨a, rfl, hka⟩
        · rw [hok] at hseg; cases hseg
        · have := seg_lines hv exact t _ _ hnode (by simp [erase, noSpan, hk]) hsh hli hcov hlf
          have hkp : a.kind ≠ .p := by rw [hka]; simp
          rw [if_pos (show (src.env num ⟨wb, some we⟩).win.at t = true from ht)] at this
          rw [← this]
          simp [timesL, times, linesAtL, linesAt, hkp]
      · have : linesAt t (.elem x kids) = [] := lines_inactive hcov (by
          cases hat : x.comp.at t with
          | false => rfl
          | true =>
            have := at_inSeg ht hat
            rw [inSeg_eq] at this
            exact absurd this ho)
        rw [this]; rfl
    · rw [if_neg ht]; rfl

theorem resegmented_reads {cfg : Seq.Cfg} {agid : Option String} {s : Seq.State} {log : List Seq.Doc}
    (h : Seq.Reach cfg agid s log) (src : Seq.Doc → Source) (lo hi : Option Int) (top : Int) (htop : top < 100 * 3600000000)
    (hlo : ∀ b, lo = some b → b % 1000 = 0) (hhi : ∀ e, hi = some e → e ≤ top ∧ e % 1000 = 0)
    (hlh : ∀ b e, lo = some b → hi = some e → b ≤ e)
    (hopen : hi = none → ∀ d ∈ s.docs, ∃ e, Seq.resolvedEnd s d = some (some e) ∧ e ≤ top)
    (exact : Bool) (hg : ∀ d ∈ s.docs, (src d).Sound d top ∧ lined exact (src d).root = true) :
    ∃ out, extractSegment s src lo hi = some out ∧
      ∀ t, (Win.at ⟨lo, hi⟩ t = true →
          (∀ a, Seq.ActiveAt s a t →
            (linesBy out t).map (List.filter (keep exact)) = (linesIn (src a) t).map (List.filter (keep exact))) ∧
          ((∀ a, ¬ Seq.ActiveAt s a t) → (linesBy out t).map (List.filter (keep exact)) = [])) ∧
        (Win.at ⟨lo, hi⟩ t = false → (linesBy out t).map (List.filter (keep exact)) = []) := by
  obtain ⟨ws, hws, hbd, hact⟩ := extract_active h src lo hi top hlo hhi hlh hopen (fun d hd => (hg d hd).1)
    (fun d t => (linesIn (src d) t).map (List.filter (keep exact)))
    (fun d hd t ht => by rw [lines_outside (hg d hd).1 ht]; rfl)
  have hseg : ∀ w ∈ ws, (∀ sd, segmentOf (src w.1) w.1.num ⟨w.2.1, w.2.2⟩ = some sd → SegBody sd.body) ∧
      ∀ t, (segmentOf (src w.1) w.1.num ⟨w.2.1, w.2.2⟩).elim []
          (fun sd => (linesContent (contentOf sd.body) t).map (List.filter (keep exact))) =
        if Win.at ⟨w.2.1, w.2.2⟩ t then (linesIn (src w.1) t).map (List.filter (keep exact)) else [] := by
    intro w hw
    obtain ⟨hwd, h1, we, h2, h3, h4⟩ := hbd w hw
    rw [h2]
    exact segmentOf_lines (hg w.1 hwd).1 exact (hg w.1 hwd).2 htop w.1.num h1 h3 h4
  have hshow : ∀ t, (linesBy (splice (ws.filterMap (fun w => segmentOf (src w.1) w.1.num ⟨w.2.1, w.2.2⟩))) t).map (List.filter (keep exact)) =
      (ws.map (fun w => if Win.at ⟨w.2.1, w.2.2⟩ t then (linesIn (src w.1) t).map (List.filter (keep exact)) else [])).flatten := by
    intro t
    rw [splice_lines, List.map_flatten, List.map_map]
    · have := filterMap_flatten (fun w : Seq.Doc × Option Int × Option Int => segmentOf (src w.1) w.1.num ⟨w.2.1, w.2.2⟩)
        (fun sd => (linesContent (contentOf sd.body) t).map (List.filter (keep exact))) ws
      refine this.trans ?_
      congr 1
      apply List.map_congr_left
      intro w hw
      exact (hseg w hw).2 t
    · intro sd hsd
      rw [List.mem_filterMap] at hsd
      obtain ⟨w, hw, he⟩ := hsd
      exact (hseg w hw).1 sd he
  refine ⟨_, by rw [extractSegment, hws]; rfl, ?_⟩
  intro t
  rw [hshow t]
  exact hact t

/-- **C97**  For every reachable sequence and every window, open or not, that ends before a hundred
hours: the document extracted shows, at each instant of the window, of the paragraphs of the document
active at that instant exactly the text and line breaks they show then, in the same order, nothing where
no document is active and nothing outside the window.  Missing: what `C97_segment_lines_partial` lists,
and windows without an end when a held document lasts for ever (`C28_false_open_end`). -/
theorem C97_resegmented_lines_partial {cfg : Seq.Cfg} {agid : Option String} {s : Seq.State} {log : List Seq.Doc}
    (h : Seq.Reach cfg agid s log) (src : Seq.Doc → Source) (lo hi : Option Int) (top : Int) (htop : top < 100 * 3600000000)
    (hlo : ∀ b, lo = some b → b % 1000 = 0) (hhi : ∀ e, hi = some e → e ≤ top ∧ e % 1000 = 0)
    (hlh : ∀ b e, lo = some b → hi = some e → b ≤ e)
    (hopen : hi = none → ∀ d ∈ s.docs, ∃ e, Seq.resolvedEnd s d = some (some e) ∧ e ≤ top)
    (hg : ∀ d ∈ s.docs, (src d).Sound d top ∧ lined true (src d).root = true) :
    ∃ out, extractSegment s src lo hi = some out ∧
      ∀ t, (Win.at ⟨lo, hi⟩ t = true → (∀ a, Seq.ActiveAt s a t → linesBy out t = linesIn (src a) t) ∧
          ((∀ a, ¬ Seq.ActiveAt s a t) → linesBy out t = [])) ∧
        (Win.at ⟨lo, hi⟩ t = false → linesBy out t = []) := by
  obtain ⟨out, h1, h2⟩ := resegmented_reads h src lo hi top htop hlo hhi hlh hopen true hg
  refine ⟨out, h1, fun t => ?_⟩
  have hid : List.filter (keep true) = id := by funext l; exact keep_true l
  have := h2 t
  rw [hid] at this
  simpa only [List.map_id] using this

/-- **C97** with spans of white space allowed. -/
theorem C97_resegmented_words_partial {cfg : Seq.Cfg} {agid : Option String} {s : Seq.State} {log : List Seq.Doc}
    (h : Seq.Reach cfg agid s log) (src : Seq.Doc → Source) (lo hi : Option Int) (top : Int) (htop : top < 100 * 3600000000)
    (hlo : ∀ b, lo = some b → b % 1000 = 0) (hhi : ∀ e, hi = some e → e ≤ top ∧ e % 1000 = 0)
    (hlh : ∀ b e, lo = some b → hi = some e → b ≤ e)
    (hopen : hi = none → ∀ d ∈ s.docs, ∃ e, Seq.resolvedEnd s d = some (some e) ∧ e ≤ top)
    (hg : ∀ d ∈ s.docs, (src d).Sound d top ∧ lined false (src d).root = true) :
    ∃ out, extractSegment s src lo hi = some out ∧
      ∀ t, (Win.at ⟨lo, hi⟩ t = true →
          (∀ a, Seq.ActiveAt s a t →
            (linesBy out t).map (List.filter (keep false)) = (linesIn (src a) t).map (List.filter (keep false))) ∧
          ((∀ a, ¬ Seq.ActiveAt s a t) → (linesBy out t).map (List.filter (keep false)) = [])) ∧
        (Win.at ⟨lo, hi⟩ t = false → (linesBy out t).map (List.filter (keep false)) = []) :=
  resegmented_reads h src lo hi top htop hlo hhi hlh hopen false hg

/-! Example: two documents of two lines; the second replaces the first at 5 s. -/

def exTwoLines (b e : Nat) (one two : String) : Node Att :=
  .elem { kind := .body } [.elem { kind := .div } [
    .elem { kind := .p, id := some "p".toList, beg := sec b, fin := sec e, style := ["s".toList] } [
      .elem { kind := .span } [.text one.toList], .br, .elem { kind := .span } [.text two.toList]]]]

def exLineSrc (d : Seq.Doc) : Source :=
  exSource (if d.num = 1 then exTwoLines 1 9 "a" "b" else exTwoLines 5 8 "c" "d")

theorem exSource_sound {root : Node Att} {d : Seq.Doc} (h1 : Sane root) (h2 : shaped root = true)
    (h4 : wellTimed root = true) (h5 : inMs root = true)
    (h6 : ∃ x kids, validateDoc 0 root = .ok (.elem x kids) ∧ d.cbegin = x.comp.b ∧ d.cend = x.comp.e) (hi : Int) :
    (exSource root).Sound d hi :=
  ⟨Time.exactReader_accurate, Int.le_refl 0, rfl, h1, h2, h4, h5, .inl rfl,
    fun _ _ _ _ _ _ _ _ _ _ => ⟨fun _ _ => rfl, fun _ _ _ => rfl⟩, h6⟩

example : (Seq.run (Seq.State.init Seq.exCfg none) exHeld).1.docs = exHeld ∧
    (∀ d ∈ exHeld, (exLineSrc d).Sound d 12000000 ∧ lined true (exLineSrc d).root = true) ∧
    (extractSegment (Seq.run (Seq.State.init Seq.exCfg none) exHeld).1 exLineSrc (some 2000000) (some 12000000)).map
        (fun out => [1999999, 2000000, 4999999, 5000000, 7999999, 8000000].map (fun t => linesBy out t)) =
      some [[], [[.text ['a'], .br, .text ['b']]], [[.text ['a'], .br, .text ['b']]], [[.text ['c'], .br, .text ['d']]],
        [[.text ['c'], .br, .text ['d']]], []] := by
  refine ⟨by decide +kernel, ?_, by decide +kernel⟩
  intro d hd
  simp only [exHeld, List.mem_cons, List.not_mem_nil, or_false] at hd
  rcases hd with rfl | rfl
  · exact ⟨exSource_sound (sane_of rfl (by decide) (by decide)) (by decide) (by decide) (by decide)
      ⟨_, _, validateDoc_eq _ _, by decide +kernel, by decide +kernel⟩ _, by decide⟩
  · exact ⟨exSource_sound (sane_of rfl (by decide) (by decide)) (by decide) (by decide) (by decide)
      ⟨_, _, validateDoc_eq _ _, by decide +kernel, by decide +kernel⟩ _, by decide⟩

end Verif.Doc
