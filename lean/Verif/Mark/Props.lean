import Verif.Mark.Said

/-!
# C109: language, white space handling, agents and roles

What the elements around a text say about it — its language, its white space handling, its agents and its roles — is kept
by segmentation, splicing and conversion to EBU-TT-D, apart from the exceptions shown by the `_false_` theorems.
-/
namespace Verif.Mark

open Verif.Doc (Node Att Kind Lab Comp Win Env SErr Item Overlaps bind_ok erase eraseL shaped shapedL fits items)
open Verif.SegHead (mapN mapNL mapNL_append)

/-- A body element with divs only whose marks are those the schema allows. -/
structure Bodied {α : Type} (kd : α → Kind) (n : Node (α × Marks)) : Prop where
  body : ∃ a kids, n = .elem a kids ∧ kd a.1 = .body ∧ ∀ k ∈ kids, ∃ b ks, k = .elem b ks ∧ kd b.1 = .div
  marked : Marked kd n

/-! ### Segments -/

/-- **C109**: the texts of a segment are exactly the texts of the document inside elements that overlap the window, in the
same order, and each has the same language, white space handling, agents and roles around it.  Of text that is only white
space nothing is claimed.  Missing: a document with `xml:space` on its tt element (`C109_false_outer_space`). -/
theorem C109_segment_partial (v : Env) (d : MDoc Lab) (seg : MDoc Att) (h : segmentDoc v d = .ok seg) (hspace : d.space = none)
    (hm : Marked lkind d.body) (hs : shaped (erase (forget d.body)) = true) :
    seg.said.filter shows = (d.saidIn v.win).filter shows := by
  unfold segmentDoc at h
  obtain ⟨body, hb, h⟩ := bind_ok h
  simp only [pure, Except.pure, Except.ok.injEq] at h
  subst h
  unfold MDoc.said MDoc.saidIn
  rw [hspace]
  exact segment_said hb hm hs

/-! ### Splicing -/

/-- What holds inside the body of a document. -/
def MDoc.inBody {α : Type} (d : MDoc α) : Around :=
  match d.body with
  | .elem a _ => (outer d.lang d.space).enter a.2
  | _ => outer d.lang d.space

theorem said_body {α : Type} {kd : α → Kind} {d : MDoc α} (hb : Bodied kd d.body) : d.said = saidL d.inBody (contentOf d.body) := by
  obtain ⟨a, kids, h, _⟩ := hb.body
  unfold MDoc.said MDoc.inBody
  rw [h]
  rfl

theorem marked_content {α : Type} {kd : α → Kind} {n : Node (α × Marks)} (hb : Marked kd n) : MarkedL kd (contentOf n) := by
  cases n with
  | elem a kids => rw [Marked] at hb; exact hb.2
  | text s => trivial
  | br => trivial

theorem rename_kind : ∀ (ns : List (Node (Att × Marks))) (ids : List Doc.Name) (kd : Kind), (∀ k ∈ ns, ∃ b ks, k = .elem b ks ∧ b.1.kind = kd) →
    ∀ k ∈ (renameList ids ns).2, ∃ b ks, k = Node.elem b ks ∧ b.1.kind = kd
  | [], ids, kd, _, k, hk => by simp [renameList] at hk
  | n :: ns, ids, kd, h, k, hk => by
    simp only [renameList, List.mem_cons] at hk
    rcases hk with rfl | hk
    · obtain ⟨b, ks, rfl, hb⟩ := h n List.mem_cons_self
      rw [renameNode]
      cases b.1.id <;> exact ⟨_, _, rfl, hb⟩
    · exact rename_kind ns _ kd (fun k hk => h k (List.mem_cons_of_mem _ hk)) k hk

/-- The invariant of the splicing loop. -/
theorem merge_said {ps : List Part} (hps : ∀ p ∈ ps, Bodied Att.kind p.doc.body) :
    ∀ (st : List Doc.Name × Part), Bodied Att.kind st.2.doc.body →
    let o := (ps.foldl mergeDoc st).2.doc
    Bodied Att.kind o.body ∧ o.lang = st.2.doc.lang ∧ o.space = st.2.doc.space ∧ bodyMarks o.body = bodyMarks st.2.doc.body ∧
      (∀ c, saidL c (contentOf o.body) = saidL c (contentOf st.2.doc.body) ++ ps.flatMap (fun p => saidL c (contentOf p.doc.body))) ∧
      (NoDivRole Att.kind st.2.doc.body → (∀ p ∈ ps, NoDivRole Att.kind p.doc.body) → NoDivRole Att.kind o.body) := by
  induction ps with
  | nil =>
    intro st hst
    refine ⟨hst, rfl, rfl, rfl, fun _ => ?_, fun h _ => h⟩
    rw [List.flatMap_nil, List.append_nil]
    rfl
  | cons p ps ih =>
    intro st hst
    have hp := hps p List.mem_cons_self
    obtain ⟨a, kids, ha, hak, hakids⟩ := hst.body
    obtain ⟨b, kidsb, hb, hbk, hbkids⟩ := hp.body
    rw [List.foldl_cons]
    -- one round
    obtain ⟨a', ks1, ks2, hm, hk', hmk, hl, hsp, hd1, hd2, h1, h2, hr⟩ : ∃ a' ks1 ks2, (mergeDoc st p).2.doc.body = .elem a' (ks1 ++ ks2) ∧
        a'.1.kind = .body ∧ a'.2 = copyMarks .body a.2 ∧
        (mergeDoc st p).2.doc.lang = st.2.doc.lang ∧ (mergeDoc st p).2.doc.space = st.2.doc.space ∧
        (∀ k ∈ ks1, ∃ b ks, k = Node.elem b ks ∧ b.1.kind = .div) ∧ (∀ k ∈ ks2, ∃ b ks, k = Node.elem b ks ∧ b.1.kind = .div) ∧
        (MarkedL Att.kind ks1 ∧ ∀ c, saidL c ks1 = saidL c kids) ∧ (MarkedL Att.kind ks2 ∧ ∀ c, saidL c ks2 = saidL c kidsb) ∧
        (NoDivRoleL Att.kind kids → NoDivRoleL Att.kind kidsb → NoDivRoleL Att.kind (ks1 ++ ks2)) := by
      have hma := hst.marked
      have hmb := hp.marked
      rw [ha, Marked] at hma
      rw [hb, Marked] at hmb
      refine ⟨_, _, _, rfl, ?_, ?_, rfl, rfl, ?_, ?_, ⟨?_, ?_⟩, ⟨?_, ?_⟩, ?_⟩
      · rw [ha]; exact hak
      · rw [ha]; rfl
      · rw [ha]; exact rename_kind _ _ _ hakids
      · rw [hb]; exact rename_kind _ _ _ hbkids
      · exact (renameL_marked _ _).1
      · intro c; rw [ha]; exact renameL_said _ _ c hma.2
      · exact (renameL_marked _ _).1
      · intro c; rw [hb]; exact renameL_said _ _ c hmb.2
      · intro g1 g2
        refine noDivRoleL_append ((renameL_marked _ _).2 ?_) ((renameL_marked _ _).2 ?_)
        · rw [ha]; exact g1
        · rw [hb]; exact g2
    have hnew : Bodied Att.kind (mergeDoc st p).2.doc.body := by
      refine ⟨⟨a', _, hm, hk', ?_⟩, ?_⟩
      · intro k hk
        rcases List.mem_append.mp hk with hk | hk
        · exact hd1 k hk
        · exact hd2 k hk
      · rw [hm, Marked]
        refine ⟨fun _ => ?_, markedL_append h1.1 h2.1⟩
        rw [hmk]
        exact copyMarks_marked _ _ (.inl rfl)
    obtain ⟨g1, g2, g3, g4, g5, g6⟩ := ih (fun q hq => hps q (List.mem_cons_of_mem _ hq)) (mergeDoc st p) hnew
    refine ⟨g1, g2.trans hl, g3.trans hsp, ?_, ?_, ?_⟩
    · rw [g4, hm, ha]
      simp only [bodyMarks, hmk]
      rfl
    · intro c
      rw [g5 c, hm, ha, List.flatMap_cons, hb]
      simp only [contentOf]
      rw [saidL_append, h1.2, h2.2, List.append_assoc]
    · intro q1 q2
      refine g6 ?_ (fun q hq => q2 q (List.mem_cons_of_mem _ hq))
      rw [hm, NoDivRole]
      rw [ha, NoDivRole] at q1
      have q3 := q2 p List.mem_cons_self
      rw [hb, NoDivRole] at q3
      exact ⟨fun h => (by rw [hk'] at h; cases h), hr q1.2 q3.2⟩

theorem inBody_eq {α β : Type} {kd : α → Kind} {kd' : β → Kind} {d : MDoc α} {e : MDoc β} (hd : Bodied kd d.body) (he : Bodied kd' e.body) (hl : d.lang = e.lang)
    (hs : d.space = e.space) (hm : bodyMarks d.body = bodyMarks e.body) : d.inBody = e.inBody := by
  obtain ⟨a, kids, ha, hak, _⟩ := hd.body
  obtain ⟨b, kidsb, hb, hbk, _⟩ := he.body
  have h1 := hd.marked
  have h2 := he.marked
  rw [ha, Marked] at h1
  rw [hb, Marked] at h2
  obtain ⟨l1, s1⟩ := h1.1 (.inl hak)
  obtain ⟨l2, s2⟩ := h2.1 (.inl hbk)
  unfold MDoc.inBody
  rw [ha, hb] at hm ⊢
  simp only [bodyMarks, Prod.mk.injEq] at hm
  simp only [Around.enter, l1, l2, s1, s2, hm.1, hm.2, hl, hs]

/-- **C109**: the texts of spliced documents are the texts of the documents in order, each with the language, white space
handling, agents and roles that its own divs, paragraphs and spans give it; around them hold the first document's language,
white space handling and the agent and role of the first document's body. -/
theorem C109_spliced_texts (p : Part) (ps : List Part) (o : Part) (h : splice (p :: ps) = some o)
    (hb : ∀ q ∈ p :: ps, Bodied Att.kind q.doc.body) :
    o.doc.said = (p :: ps).flatMap (fun q => saidL p.doc.inBody (contentOf q.doc.body)) := by
  simp only [splice, Option.some.injEq] at h
  subst h
  obtain ⟨g1, g2, g3, g4, g5, _⟩ := merge_said (fun q hq => hb q (List.mem_cons_of_mem _ hq)) ([], p) (hb p List.mem_cons_self)
  rw [said_body g1, g5, inBody_eq g1 (hb p List.mem_cons_self) g2 g3 g4, List.flatMap_cons]

/-- **C109**: if the documents agree on the language, the white space handling and the agent and role of the body, nothing
changes.  Missing: documents that do not agree, which a sequence does not refuse (`C109_false_languages`,
`C109_false_body_agent`). -/
theorem C109_splice_partial (ps : List Part) (o : Part) (h : splice ps = some o) (hb : ∀ p ∈ ps, Bodied Att.kind p.doc.body)
    (lang space : Option (List Char)) (mk : Option (List Char) × Option (List Char))
    (hsame : ∀ p ∈ ps, p.doc.lang = lang ∧ p.doc.space = space ∧ bodyMarks p.doc.body = mk) :
    o.doc.said = ps.flatMap (fun p => p.doc.said) := by
  cases ps with
  | nil => simp [splice] at h
  | cons p ps =>
    rw [C109_spliced_texts p ps o h hb]
    have hp := hb p List.mem_cons_self
    obtain ⟨p1, p2, p3⟩ := hsame p List.mem_cons_self
    have key : ∀ l : List Part, (∀ q ∈ l, q ∈ p :: ps) →
        l.flatMap (fun q => saidL p.doc.inBody (contentOf q.doc.body)) = l.flatMap (fun p => p.doc.said) := by
      intro l
      induction l with
      | nil => intro _; rfl
      | cons q l ih =>
        intro hl
        have hq := hl q List.mem_cons_self
        obtain ⟨q1, q2, q3⟩ := hsame q hq
        rw [List.flatMap_cons, List.flatMap_cons, ih (fun r hr => hl r (List.mem_cons_of_mem _ hr)), said_body (hb q hq),
          inBody_eq hp (hb q hq) (p1.trans q1.symm) (p2.trans q2.symm) (p3.trans q3.symm)]
    exact key _ (fun _ h => h)

/-! ### Conversion -/

/-- **C109**: the EBU-TT-D document has exactly the texts of the converted document, in order, each with the same language,
white space handling, agents and roles.  Missing: divs with a role (`C109_false_div_role`). -/
theorem C109_convert_partial (m : Convert.Media) (d : MDoc Att) (o : DDoc) (h : convert m d = .ok o) (hb : Bodied Att.kind d.body)
    (hn : NoDivRole Att.kind d.body) : o.said = d.said := by
  unfold convert at h
  simp only at h
  split at h
  · obtain ⟨body, hbody, h⟩ := bind_ok h
    simp only [pure, Except.pure, Except.ok.injEq] at h
    subst h
    obtain ⟨n', hn', rfl⟩ : ∃ n', conv m d.body = .ok n' ∧ body = some n' := by
      cases hc : conv m d.body with
      | error e => rw [hc] at hbody; simp [Except.map] at hbody
      | ok n' => rw [hc] at hbody; simp only [Except.map, Except.ok.injEq] at hbody; exact ⟨n', rfl, hbody.symm⟩
    exact conv_said _ _ _ hn' hb.marked hn
  · rename_i hno
    obtain ⟨body, hbody, h⟩ := bind_ok h
    simp only [pure, Except.pure, Except.ok.injEq] at h hbody
    subst h hbody
    obtain ⟨a, kids, ha, _, hkids⟩ := hb.body
    cases kids with
    | nil => unfold DDoc.said MDoc.said; rw [ha]; rfl
    | cons k ks =>
      obtain ⟨b, kk, rfl, hbk⟩ := hkids k List.mem_cons_self
      rw [ha] at hno
      simp [mapN, mapNL, Convert.hasDiv, hbk] at hno

/-! ### From the documents of a sequence to the encoder -/

/-- What is assumed of a held document. -/
structure Proper (d : MDoc Lab) : Prop where
  bodied : Bodied lkind d.body
  shaped : shaped (erase (forget d.body)) = true
  space : d.space = none
  roles : NoDivRole lkind d.body

theorem segment_bodied {v : Env} {d : MDoc Lab} {seg : MDoc Att} (h : segmentDoc v d = .ok seg) (hd : Bodied lkind d.body)
    (hs : Verif.Doc.shaped (erase (forget d.body)) = true) :
    Bodied Att.kind seg.body ∧ seg.lang = d.lang ∧ seg.space = none ∧ bodyMarks seg.body = bodyMarks d.body ∧
      (NoDivRole lkind d.body → NoDivRole Att.kind seg.body) := by
  unfold segmentDoc at h
  obtain ⟨body, hb, h⟩ := bind_ok h
  simp only [pure, Except.pure, Except.ok.injEq] at h
  subst h
  obtain ⟨x, kids, hx, hxk, hkids⟩ := hd.body
  rw [hx] at hb hs
  obtain ⟨a, ks, rfl, hak, hks⟩ := segment_body hb
  obtain ⟨m1, m2⟩ := segL_marked kids ks hks
  have hxk' : x.1.att.kind = .body := hxk
  have hfit : (forgetL ks).all (fits .body) = true := by
    have hks' : Doc.segList v (forgetL kids) = .ok (forgetL ks) := by rw [forget_segList, hks]; rfl
    simp only [forget, mapN, erase, Verif.Doc.shaped, Bool.and_eq_true] at hs
    rw [hxk'] at hs
    exact Doc.segList_fits hks' hs.1
  refine ⟨⟨⟨_, _, rfl, by rw [hak]; exact hxk, ?_⟩, ?_⟩, rfl, rfl, ?_, ?_⟩
  · intro k hk
    have : forget k ∈ forgetL ks := by
      simp only [forget, forgetL]
      rw [SegHead.mapNL_eq]
      exact List.mem_map_of_mem hk
    have := List.all_eq_true.mp hfit _ this
    cases k with
    | text s => simp [mapN, fits] at this
    | br => simp [mapN, fits] at this
    | elem b kk => exact ⟨b, kk, rfl, by simpa [mapN, fits] using this⟩
  · rw [Marked]
    refine ⟨fun _ => copyMarks_marked _ _ (.inl hxk'), m1⟩
  · rw [hx]
    simp only [bodyMarks, copyMarks_agent, copyMarks_role]
  · intro hn
    rw [hx, NoDivRole] at hn
    rw [NoDivRole]
    exact ⟨fun h => by rw [copyMarks_role]; exact hn.1 (by rw [← h]; exact hak.symm), m2 hn.2⟩

/-- **C109**: what the encoder makes of a segment of a sequence of documents has the texts that the sequence's documents have
inside elements that overlap their windows, in order, each with the language, white space handling, agents and roles it has
in its document.  `ws` are the windows the sequence looks up and `doc` the validated documents; documents whose extraction fails are left out by the program.
Missing: `xml:space` on tt, roles on divs, documents that disagree on language or on the agent and role of the body. -/
theorem C109_encoded_sequence_partial (s : Seq.State) (src : Seq.Doc → Held) (lo hi : Option Int) (m : Convert.Media)
    (ws : List (Seq.Doc × Option Int × Option Int)) (hws : Seq.extractWindows s lo hi = some ws)
    (p : Part) (hp : extractSegment s src lo hi = some (some p)) (o : DDoc) (ho : convert m p.doc = .ok o)
    (doc : Seq.Doc → MDoc Lab) (hval : ∀ w ∈ ws, validate (src w.1).src.avail (src w.1).root = .ok (doc w.1))
    (hgood : ∀ w ∈ ws, Proper (doc w.1)) (lang : Option (List Char)) (mk : Option (List Char) × Option (List Char))
    (hsame : ∀ w ∈ ws, (doc w.1).lang = lang ∧ bodyMarks (doc w.1).body = mk) :
    o.said.filter shows = (ws.filter (fun w => (segmentOf (src w.1) w.1.num ⟨w.2.1, w.2.2⟩).isSome)).flatMap
      (fun w => ((doc w.1).saidIn ⟨w.2.1, w.2.2⟩).filter shows) := by
  have seg : ∀ w ∈ ws, ∀ q, segmentOf (src w.1) w.1.num ⟨w.2.1, w.2.2⟩ = some q →
      Bodied Att.kind q.doc.body ∧ (q.doc.lang = lang ∧ q.doc.space = none ∧ bodyMarks q.doc.body = mk) ∧ NoDivRole Att.kind q.doc.body ∧
        q.doc.said.filter shows = ((doc w.1).saidIn ⟨w.2.1, w.2.2⟩).filter shows := by
    intro w hw q hq
    have hg := hgood w hw
    unfold segmentOf at hq
    rw [hval w hw] at hq
    simp only at hq
    split at hq
    · cases hq
    · rename_i sg hsg
      injection hq with hq
      subst hq
      obtain ⟨b1, b2, b3, b4, b5⟩ := segment_bodied hsg hg.bodied hg.shaped
      obtain ⟨e1, e2⟩ := hsame w hw
      refine ⟨b1, ⟨by rw [b2]; exact e1, b3, by rw [b4]; exact e2⟩, b5 hg.roles, ?_⟩
      have := C109_segment_partial _ _ _ hsg hg.space hg.bodied.marked hg.shaped
      simpa [Doc.Source.env] using this
  have hsp : splice (ws.filterMap (fun w => segmentOf (src w.1) w.1.num ⟨w.2.1, w.2.2⟩)) = some p := by
    unfold extractSegment at hp
    rw [hws] at hp
    simpa using hp
  have hall : ∀ q ∈ ws.filterMap (fun w => segmentOf (src w.1) w.1.num ⟨w.2.1, w.2.2⟩), ∃ w ∈ ws,
      segmentOf (src w.1) w.1.num ⟨w.2.1, w.2.2⟩ = some q := by
    intro q hq
    exact List.mem_filterMap.mp hq
  have hbod : Bodied Att.kind p.doc.body ∧ NoDivRole Att.kind p.doc.body := by
    cases hl : ws.filterMap (fun w => segmentOf (src w.1) w.1.num ⟨w.2.1, w.2.2⟩) with
    | nil => rw [hl] at hsp; simp [splice] at hsp
    | cons q qs =>
      rw [hl] at hsp hall
      simp only [splice, Option.some.injEq] at hsp
      have hq : ∀ r ∈ q :: qs, Bodied Att.kind r.doc.body ∧ NoDivRole Att.kind r.doc.body := by
        intro r hr
        obtain ⟨w, hw, hwr⟩ := hall r hr
        have := seg w hw r hwr
        exact ⟨this.1, this.2.2.1⟩
      obtain ⟨g1, _, _, _, _, g6⟩ := merge_said (fun r hr => (hq r (List.mem_cons_of_mem _ hr)).1) ([], q) (hq q List.mem_cons_self).1
      rw [← hsp]
      exact ⟨g1, g6 (hq q List.mem_cons_self).2 (fun r hr => (hq r (List.mem_cons_of_mem _ hr)).2)⟩
  rw [C109_convert_partial m p.doc o ho hbod.1 hbod.2,
    C109_splice_partial _ p hsp (fun q hq => by
      obtain ⟨w, hw, hwq⟩ := hall q hq
      exact (seg w hw q hwq).1) lang none mk (fun q hq => by
      obtain ⟨w, hw, hwq⟩ := hall q hq
      exact (seg w hw q hwq).2.1)]
  clear hsp hall hws hp hgood hsame hval
  induction ws with
  | nil => rfl
  | cons w ws ih =>
    have ih := ih (fun w hw => seg w (List.mem_cons_of_mem _ hw))
    rw [List.filterMap_cons, List.filter_cons]
    cases hseg : segmentOf (src w.1) w.1.num ⟨w.2.1, w.2.2⟩ with
    | none => simpa using ih
    | some q =>
      simp only [Option.isSome_some, if_true, List.flatMap_cons, List.filter_append]
      rw [ih, (seg w List.mem_cons_self q hseg).2.2.2]

end Verif.Mark
