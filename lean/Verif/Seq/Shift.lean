import Verif.Seq.Props

/-
The sequence does not care where time zero is, nor how it is called: when all documents are moved by the same time and the sequence
identifier is renamed, every call ends the same way and the sequence is the moved one.
-/
namespace Verif.Seq

/-- A document that begins and ends `δ` later, in a sequence of another name. -/
def Doc.mv (f : String → String) (δ : Int) (d : Doc) : Doc :=
  { d with seqId := f d.seqId, cbegin := d.cbegin + δ, cend := d.cend.map (· + δ) }

def Event.mv (f : String → String) (δ : Int) (e : Event) : Event := ⟨e.kind, e.doc.mv f δ, e.time + δ⟩

def Cfg.mv (f : String → String) (c : Cfg) : Cfg := { c with seqId := f c.seqId }

def State.mv (f : String → String) (δ : Int) (s : State) : State :=
  { cfg := s.cfg.mv f, agid := s.agid, lastNum := s.lastNum, docs := s.docs.map (Doc.mv f δ),
    timeline := s.timeline.map (Event.mv f δ), gone := s.gone.map (fun p => (p.1.mv f δ, p.2 + δ)) }

def BackRes.mv (f : String → String) (δ : Int) : BackRes → BackRes
  | .discarded x => .discarded (x.mv f δ)
  | .inconsistent => .inconsistent
  | .ok bb => .ok (bb.map (Event.mv f δ))

def FwdRes.mv (f : String → String) (δ : Int) : FwdRes → FwdRes
  | .inconsistent => .inconsistent
  | .overridden => .overridden
  | .typeError => .typeError
  | .ok ea tr => .ok (ea.map (Event.mv f δ)) (tr.map (Event.mv f δ))

def InsRes.mv (f : String → String) (δ : Int) : InsRes → InsRes
  | .discarded x => .discarded (x.mv f δ)
  | .overridden => .overridden
  | .valueError => .valueError
  | .typeError => .typeError
  | .ok docs tl => .ok (docs.map (Doc.mv f δ)) (tl.map (Event.mv f δ))

section
variable {f : String → String} {δ : Int}

@[simp] theorem mv_num (d : Doc) : (d.mv f δ).num = d.num := (rfl)
@[simp] theorem mv_cbegin (d : Doc) : (d.mv f δ).cbegin = d.cbegin + δ := (rfl)
@[simp] theorem mv_cend (d : Doc) : (d.mv f δ).cend = d.cend.map (· + δ) := (rfl)
@[simp] theorem mv_kind (e : Event) : (e.mv f δ).kind = e.kind := (rfl)
@[simp] theorem mv_time (e : Event) : (e.mv f δ).time = e.time + δ := (rfl)
@[simp] theorem mv_doc (e : Event) : (e.mv f δ).doc = e.doc.mv f δ := (rfl)

theorem Doc.mv_inj (hf : ∀ a b, f a = f b → a = b) {x y : Doc} (h : x.mv f δ = y.mv f δ) : x = y := by
  cases x with
  | mk u1 s1 n1 t1 c1 a1 b1 e1 =>
    cases y with
    | mk u2 s2 n2 t2 c2 a2 b2 e2 =>
      simp only [Doc.mv, Doc.mk.injEq] at h
      obtain ⟨h1, h2, h3, h4, h5, h6, h7, h8⟩ := h
      have h8' : e1 = e2 := by
        cases e1 <;> cases e2 <;> simp at h8 ⊢
        omega
      simp only [Doc.mk.injEq]
      exact ⟨h1, hf _ _ h2, h3, h4, h5, h6, by omega, h8'⟩

theorem Doc.mv_eq (hf : ∀ a b, f a = f b → a = b) (x y : Doc) : x.mv f δ = y.mv f δ ↔ x = y :=
  ⟨Doc.mv_inj hf, fun h => by rw [h]⟩

theorem Event.mv_eq (hf : ∀ a b, f a = f b → a = b) (x y : Event) : x.mv f δ = y.mv f δ ↔ x = y := by
  refine ⟨fun h => ?_, fun h => by rw [h]⟩
  cases x with
  | mk k1 d1 t1 =>
    cases y with
    | mk k2 d2 t2 =>
      simp only [Event.mv, Event.mk.injEq] at h
      simp only [Event.mk.injEq]
      exact ⟨h.1, Doc.mv_inj hf h.2.1, by omega⟩

theorem mem_mv (hf : ∀ a b, f a = f b → a = b) (x : Doc) (l : List Doc) : x.mv f δ ∈ l.map (Doc.mv f δ) ↔ x ∈ l := by
  simp only [List.mem_map]
  exact ⟨fun ⟨y, hy, h⟩ => Doc.mv_inj hf h ▸ hy, fun h => ⟨x, h, rfl⟩⟩

theorem contains_mv (hf : ∀ a b, f a = f b → a = b) (x : Doc) (l : List Doc) :
    (l.map (Doc.mv f δ)).contains (x.mv f δ) = l.contains x := by
  rw [Bool.eq_iff_iff]
  simp only [List.contains_eq_mem, decide_eq_true_eq]
  exact mem_mv hf x l

theorem insertEv_mv (e : Event) (l : List Event) : insertEv (e.mv f δ) (l.map (Event.mv f δ)) = (insertEv e l).map (Event.mv f δ) := by
  induction l with
  | nil => rfl
  | cons x xs ih =>
    simp only [insertEv, List.map_cons, mv_time, Int.add_lt_add_iff_right]
    split
    · rfl
    · rw [ih]; rfl

theorem insertDoc_mv (d : Doc) (l : List Doc) : insertDoc (d.mv f δ) (l.map (Doc.mv f δ)) = (insertDoc d l).map (Doc.mv f δ) := by
  induction l with
  | nil => rfl
  | cons x xs ih =>
    simp only [insertDoc, List.map_cons, mv_num]
    by_cases h : d.num < x.num
    · rw [if_pos h, if_pos h]; rfl
    · rw [if_neg h, if_neg h, ih]; rfl

theorem existsNum_mv (docs : List Doc) (n : Nat) : existsNum (docs.map (Doc.mv f δ)) n = existsNum docs n := by
  induction docs with
  | nil => rfl
  | cons x xs ih =>
    simp only [existsNum] at ih
    simp only [existsNum, List.map_cons, List.dropWhile_cons, mv_num]
    by_cases h : x.num < n
    · rw [if_pos (by simpa using h), if_pos (by simpa using h)]; exact ih
    · rw [if_neg (by simpa using h), if_neg (by simpa using h)]; rfl

theorem checkCompat_mv (hf : ∀ a b, f a = f b → a = b) (s : State) (d : Doc) : checkCompat (s.mv f δ) (d.mv f δ) = checkCompat s d := by
  have h1 : (s.mv f δ).cfg.seqId ≠ (d.mv f δ).seqId ↔ s.cfg.seqId ≠ d.seqId :=
    not_congr ⟨fun h => hf _ _ h, fun h => congrArg f h⟩
  have h2 : existsNum (s.mv f δ).docs (d.mv f δ).num = existsNum s.docs d.num := existsNum_mv _ _
  unfold checkCompat
  rw [h2]
  simp only [h1]
  rfl

theorem scanBack_mv (n : Nat) (l : List Event) : ∀ (ef : Option Doc),
    scanBack n (ef.map (Doc.mv f δ)) (l.map (Event.mv f δ)) = (scanBack n ef l).mv f δ := by
  induction l with
  | nil => intro ef; rfl
  | cons x xs ih =>
    intro ef
    simp only [List.map_cons, scanBack, mv_doc, mv_num, mv_kind]
    by_cases h : x.doc.num > n
    · rw [if_pos h, if_pos h]; rfl
    · rw [if_neg h, if_neg h]
      cases hk : x.kind with
      | bgn =>
        cases ef with
        | none => rfl
        | some y =>
          simp only [Option.map_some, mv_num]
          by_cases h' : y.num ≠ x.doc.num
          · rw [if_pos h', if_pos h']; rfl
          · rw [if_neg h', if_neg h']; rfl
      | fin =>
        cases ef with
        | none => exact ih (some x.doc)
        | some y => rfl

theorem scanFwd_mv (d : Doc) (bb : Option Event) (l : List Event) : ∀ (ea : Option Event),
    scanFwd (d.mv f δ) (bb.map (Event.mv f δ)) (ea.map (Event.mv f δ)) (l.map (Event.mv f δ)) = (scanFwd d bb ea l).mv f δ := by
  induction l with
  | nil => intro ea; rfl
  | cons x xs ih =>
    intro ea
    have ihx := ih (some x)
    simp only [Option.map_some] at ihx
    simp only [List.map_cons, scanFwd, mv_doc, mv_num, mv_kind, mv_time, mv_cend]
    cases hk : x.kind with
    | fin =>
      cases bb with
      | none => exact ihx
      | some p =>
        have ht : x.time + δ ≠ p.time + δ ↔ x.time ≠ p.time := by omega
        simp only [Option.map_some, mv_doc, mv_num, mv_time, ht]
        split
        · rfl
        · exact ihx
    | bgn =>
      simp only
      by_cases h : d.num > x.doc.num
      · rw [if_pos h, if_pos h]; rfl
      · rw [if_neg h, if_neg h]
        by_cases h' : x.doc.num > d.num
        · rw [if_pos h', if_pos h']
          cases d.cend with
          | none => rfl
          | some e =>
            simp only [Option.map_some]
            by_cases h2 : e > x.time
            · rw [if_pos h2, if_pos (by omega)]; rfl
            · rw [if_neg h2, if_neg (by omega)]; rfl
        · rw [if_neg h', if_neg h']
          exact ih ea

theorem trimPrev_mv (hf : ∀ a b, f a = f b → a = b) (tl : List Event) (bb ea : Option Event) (b : Int) :
    trimPrev (tl.map (Event.mv f δ)) (bb.map (Event.mv f δ)) (ea.map (Event.mv f δ)) (b + δ) = (trimPrev tl bb ea b).map (Event.mv f δ) := by
  have herase : ∀ (l : List Event) (e : Event), (l.map (Event.mv f δ)).erase (e.mv f δ) = (l.erase e).map (Event.mv f δ) := by
    intro l e
    induction l with
    | nil => rfl
    | cons x xs ih =>
      rw [List.map_cons, List.erase_cons, List.erase_cons]
      have : (x.mv f δ == e.mv f δ) = (x == e) := by
        rw [Bool.eq_iff_iff]; simp only [beq_iff_eq]; exact Event.mv_eq hf x e
      rw [this]
      split
      · rfl
      · rw [ih]; rfl
  cases bb with
  | none => rfl
  | some p =>
    cases ea with
    | none => exact insertEv_mv ⟨.fin, p.doc, b⟩ tl
    | some e =>
      simp only [Option.map_some, trimPrev]
      rw [herase]
      exact insertEv_mv { e with time := b } (tl.erase e)

theorem insertOnTimeline_mv (tl : List Event) (d : Doc) (e : Option Int) :
    insertOnTimeline (tl.map (Event.mv f δ)) (d.mv f δ) (e.map (· + δ)) = (insertOnTimeline tl d e).map (Event.mv f δ) := by
  have hb : beginEvent (d.mv f δ) = (beginEvent d).mv f δ := rfl
  cases e with
  | none => simp only [Option.map_none, insertOnTimeline, hb]; exact insertEv_mv _ _
  | some t =>
    simp only [Option.map_some, insertOnTimeline, hb]
    rw [insertEv_mv]
    exact insertEv_mv ⟨.fin, d, t⟩ _

theorem insertOrDiscard_mv (hf : ∀ a b, f a = f b → a = b) (docs : List Doc) (tl : List Event) (d : Doc) :
    insertOrDiscard (docs.map (Doc.mv f δ)) (tl.map (Event.mv f δ)) (d.mv f δ) = (insertOrDiscard docs tl d).mv f δ := by
  have h1 : (tl.map (Event.mv f δ)).filter (fun x => decide (x.time ≤ (d.mv f δ).cbegin)) =
      (tl.filter (fun x => decide (x.time ≤ d.cbegin))).map (Event.mv f δ) := by
    rw [List.filter_map]
    congr 1
    apply List.filter_congr
    intro x _
    simp [Function.comp]
  have h2 : (tl.map (Event.mv f δ)).filter (fun x => decide ((d.mv f δ).cbegin ≤ x.time)) =
      (tl.filter (fun x => decide (d.cbegin ≤ x.time))).map (Event.mv f δ) := by
    rw [List.filter_map]
    congr 1
    apply List.filter_congr
    intro x _
    simp [Function.comp]
  unfold insertOrDiscard
  rw [h1, h2, ← List.map_reverse]
  have hb := scanBack_mv (f := f) (δ := δ) d.num (tl.filter (fun x => decide (x.time ≤ d.cbegin))).reverse none
  simp only [Option.map_none, mv_num] at hb ⊢
  rw [hb]
  cases scanBack d.num none (tl.filter (fun x => decide (x.time ≤ d.cbegin))).reverse with
  | discarded x => rfl
  | inconsistent => rfl
  | ok bb =>
    simp only [BackRes.mv]
    have hw := scanFwd_mv (f := f) (δ := δ) d bb (tl.filter (fun x => decide (d.cbegin ≤ x.time))) none
    simp only [Option.map_none] at hw
    rw [hw]
    cases scanFwd d bb none (tl.filter (fun x => decide (d.cbegin ≤ x.time))) with
    | inconsistent => rfl
    | overridden => rfl
    | typeError => rfl
    | ok ea tr =>
      simp only [FwdRes.mv, InsRes.mv]
      have ht : thisEnd (d.mv f δ) (tr.map (Event.mv f δ)) = (thisEnd d tr).map (· + δ) := by cases tr <;> rfl
      rw [insertDoc_mv, ht, ← insertOnTimeline_mv, ← trimPrev_mv hf]
      rfl

theorem overrideScan_mv (hf : ∀ a b, f a = f b → a = b) (b : Int) (n : Nat) (l : List Event) : ∀ (disc : List Doc),
    overrideScan (b + δ) n (disc.map (Doc.mv f δ)) (l.map (Event.mv f δ)) =
      ((overrideScan b n disc l).1.map (Event.mv f δ), (overrideScan b n disc l).2.map (Doc.mv f δ)) := by
  induction l with
  | nil => intro disc; rfl
  | cons x xs ih =>
    intro disc
    have ht : b + δ ≤ x.time + δ ↔ b ≤ x.time := by omega
    simp only [List.map_cons, overrideScan, mv_time, mv_doc, mv_num, mv_kind, ht, mem_mv hf]
    split
    · have hd : (if x.doc ∈ disc then disc.map (Doc.mv f δ) else disc.map (Doc.mv f δ) ++ [x.doc.mv f δ]) =
          (if x.doc ∈ disc then disc else disc ++ [x.doc]).map (Doc.mv f δ) := by
        split <;> simp
      rw [hd, ih]
    · rw [ih]
      rfl

theorem overrideSequence_mv (hf : ∀ a b, f a = f b → a = b) (s : State) (d : Doc) :
    overrideSequence (s.mv f δ) (d.mv f δ) = (overrideSequence s d).map (State.mv f δ) := by
  have hs := overrideScan_mv (δ := δ) hf d.cbegin d.num s.timeline []
  simp only [List.map_nil] at hs
  unfold overrideSequence
  simp only [mv_cbegin, mv_num]
  rw [show (s.mv f δ).timeline = s.timeline.map (Event.mv f δ) from rfl, hs]
  generalize overrideScan d.cbegin d.num [] s.timeline = r
  have hany : (r.2.map (Doc.mv f δ)).any (fun x => decide (d.cbegin + δ > x.cbegin) || !((s.mv f δ).docs.contains x)) =
      r.2.any (fun x => decide (d.cbegin > x.cbegin) || !(s.docs.contains x)) := by
    rw [List.any_map]
    congr 1
    funext x
    have hc : (s.mv f δ).docs.contains (x.mv f δ) = s.docs.contains x := contains_mv hf x s.docs
    rw [Function.comp, hc]
    congr 1
    rw [Bool.eq_iff_iff, decide_eq_true_iff, decide_eq_true_iff, mv_cbegin]
    omega
  simp only
  rw [hany]
  by_cases h : (r.2.any (fun x => decide (d.cbegin > x.cbegin) || !(s.docs.contains x))) = true
  · rw [if_pos h, if_pos h]; rfl
  · rw [if_neg h, if_neg h]
    simp only [Option.map_some, Option.some.injEq]
    unfold State.mv
    simp only [State.mk.injEq, true_and, List.map_append, List.map_map]
    refine ⟨?_, ?_⟩
    · rw [List.filter_map]
      congr 1
      apply List.filter_congr
      intro x _
      simp only [Function.comp]
      rw [contains_mv hf]
    · rfl

theorem find_mv {α β : Type} (g : α → β) (p : β → Bool) (q : α → Bool) (l : List α) (h : ∀ x ∈ l, p (g x) = q x) :
    (l.map g).find? p = (l.find? q).map g := by
  induction l with
  | nil => rfl
  | cons x xs ih =>
    have hx := h x (by simp)
    rw [List.map_cons, List.find?_cons, List.find?_cons, hx, ih (fun y hy => h y (List.mem_cons_of_mem _ hy))]
    cases q x <;> rfl

theorem goneEnd_mv (hf : ∀ a b, f a = f b → a = b) (s : State) (d : Doc) :
    goneEnd (s.mv f δ) (d.mv f δ) = (goneEnd s d).map (· + δ) := by
  unfold goneEnd State.mv
  rw [find_mv _ _ (fun p => p.1 == d)]
  · cases s.gone.find? (fun p => p.1 == d) <;> rfl
  · intro p _
    rw [Bool.eq_iff_iff]
    simp only [beq_iff_eq]
    exact Doc.mv_eq hf p.1 d

theorem locate_mv (tl : List Event) (d : Doc) (k : Kind) :
    ((tl.map (Event.mv f δ)).filter (fun x => decide ((d.mv f δ).cbegin ≤ x.time))).find?
      (fun x => x.doc.num == (d.mv f δ).num && x.kind == k) =
    ((tl.filter (fun x => decide (d.cbegin ≤ x.time))).find? (fun x => x.doc.num == d.num && x.kind == k)).map (Event.mv f δ) := by
  have h2 : (tl.map (Event.mv f δ)).filter (fun x => decide ((d.mv f δ).cbegin ≤ x.time)) =
      (tl.filter (fun x => decide (d.cbegin ≤ x.time))).map (Event.mv f δ) := by
    rw [List.filter_map]
    congr 1
    apply List.filter_congr
    intro x _
    simp [Function.comp]
  rw [h2]
  exact find_mv _ _ _ _ (fun x _ => rfl)

theorem seqResolvedBegin_mv (hf : ∀ a b, f a = f b → a = b) (s : State) (d : Doc) :
    seqResolvedBegin (s.mv f δ) (d.mv f δ) = (seqResolvedBegin s d).map (· + δ) := by
  have hl : locateBegin (s.mv f δ).timeline (d.mv f δ) = (locateBegin s.timeline d).map (Event.mv f δ) :=
    locate_mv s.timeline d .bgn
  unfold seqResolvedBegin
  rw [hl]
  have hc : (s.mv f δ).docs.contains (d.mv f δ) = s.docs.contains d := contains_mv hf d s.docs
  rw [hc]
  split
  · cases locateBegin s.timeline d <;> rfl
  · rfl

theorem resolvedBegin_mv (hf : ∀ a b, f a = f b → a = b) (s : State) (d : Doc) :
    resolvedBegin (s.mv f δ) (d.mv f δ) = (resolvedBegin s d).map (· + δ) := by
  unfold resolvedBegin
  rw [goneEnd_mv hf, seqResolvedBegin_mv hf]
  cases goneEnd s d <;> rfl

/-- `resolved_end_time` moves with the documents, as long as no end event is at time zero, before or after: zero is reported as no end
at all. -/
theorem resolvedEnd_mv (hf : ∀ a b, f a = f b → a = b) (s : State) (d : Doc)
    (h0 : ∀ e ∈ s.timeline, e.kind = .fin → e.time ≠ 0 ∧ e.time + δ ≠ 0) :
    resolvedEnd (s.mv f δ) (d.mv f δ) = (resolvedEnd s d).map (Option.map (· + δ)) := by
  have hl : locateEnd (s.mv f δ).timeline (d.mv f δ) = (locateEnd s.timeline d).map (Event.mv f δ) :=
    locate_mv s.timeline d .fin
  unfold resolvedEnd
  rw [goneEnd_mv hf]
  cases goneEnd s d with
  | some t => rfl
  | none =>
    simp only [Option.map_none]
    unfold seqResolvedEnd
    have hc : (s.mv f δ).docs.contains (d.mv f δ) = s.docs.contains d := contains_mv hf d s.docs
    rw [hl, hc]
    split
    · cases he : locateEnd s.timeline d with
      | none =>
        simp only [Option.map_none, mv_cend]
        cases hd : d.cend <;> simp
      | some e =>
        have hmem := List.mem_of_find?_eq_some he
        have hk := List.find?_some he
        simp only [Bool.and_eq_true, beq_iff_eq] at hk
        obtain ⟨h1, h2⟩ := h0 e (List.mem_filter.1 hmem).1 hk.2
        simp [h1, h2]
    · rfl

theorem discardNew_mv (hf : ∀ a b, f a = f b → a = b) (s : State) (d x : Doc) :
    discardNew (s.mv f δ) (d.mv f δ) (x.mv f δ) = ((discardNew s d x).1.mv f δ, (discardNew s d x).2) := by
  unfold discardNew
  rw [resolvedBegin_mv hf]
  cases resolvedBegin s x with
  | none => rfl
  | some t =>
    have ht : t + δ > d.cbegin + δ ↔ t > d.cbegin := by omega
    simp only [Option.map_some, mv_cbegin, ht]
    split <;> rfl

theorem retry_mv (hf : ∀ a b, f a = f b → a = b) (s : State) (d : Doc) :
    retry (s.mv f δ) (d.mv f δ) = ((retry s d).1.mv f δ, (retry s d).2) := by
  unfold retry
  rw [overrideSequence_mv hf]
  cases overrideSequence s d with
  | none => rfl
  | some s' =>
    simp only [Option.map_some]
    have hi : insertOrDiscard (s'.mv f δ).docs (s'.mv f δ).timeline (d.mv f δ) = (insertOrDiscard s'.docs s'.timeline d).mv f δ :=
      insertOrDiscard_mv hf _ _ _
    rw [hi]
    cases insertOrDiscard s'.docs s'.timeline d <;> rfl

theorem addDocument_mv (hf : ∀ a b, f a = f b → a = b) (s : State) (d : Doc) :
    addDocument (s.mv f δ) (d.mv f δ) = ((addDocument s d).1.mv f δ, (addDocument s d).2) := by
  unfold addDocument
  rw [checkCompat_mv hf]
  cases checkCompat s d with
  | error o => rfl
  | ok g =>
    simp only
    have hg : ({ s.mv f δ with agid := g } : State) = ({ s with agid := g } : State).mv f δ := rfl
    rw [hg]
    generalize hs' : ({ s with agid := g } : State) = s'
    have hi : insertOrDiscard (s'.mv f δ).docs (s'.mv f δ).timeline (d.mv f δ) = (insertOrDiscard s'.docs s'.timeline d).mv f δ :=
      insertOrDiscard_mv hf _ _ _
    rw [show s.docs = s'.docs by rw [← hs'], show s.timeline = s'.timeline by rw [← hs'],
      show (s.mv f δ).docs = (s'.mv f δ).docs by rw [← hs']; rfl, show (s.mv f δ).timeline = (s'.mv f δ).timeline by rw [← hs']; rfl, hi]
    cases insertOrDiscard s'.docs s'.timeline d with
    | ok docs tl => rfl
    | discarded x => exact discardNew_mv hf s' d x
    | overridden => exact retry_mv hf s' d
    | valueError => rfl
    | typeError => rfl

theorem run_mv (hf : ∀ a b, f a = f b → a = b) (ds : List Doc) : ∀ s : State,
    run (s.mv f δ) (ds.map (Doc.mv f δ)) = ((run s ds).1.mv f δ, (run s ds).2) := by
  induction ds with
  | nil => intro s; rfl
  | cons d ds ih =>
    intro s
    simp only [List.map_cons, run]
    rw [addDocument_mv hf, ih]

/-- What is active moves with the documents. -/
theorem active_mv (hf : ∀ a b, f a = f b → a = b) (s : State) (d : Doc) (t : Int)
    (h0 : ∀ e ∈ s.timeline, e.kind = .fin → e.time ≠ 0 ∧ e.time + δ ≠ 0) :
    ActiveAt (s.mv f δ) (d.mv f δ) (t + δ) ↔ ActiveAt s d t := by
  have hm : d.mv f δ ∈ (s.mv f δ).docs ↔ d ∈ s.docs := mem_mv hf d s.docs
  unfold ActiveAt
  rw [hm, resolvedBegin_mv hf, resolvedEnd_mv hf s d h0]
  constructor
  · rintro ⟨h, b, hb, hbt, e, he, het⟩
    cases hb' : resolvedBegin s d with
    | none => rw [hb'] at hb; simp at hb
    | some b' =>
      rw [hb'] at hb
      simp only [Option.map_some, Option.some.injEq] at hb
      cases he' : resolvedEnd s d with
      | none => rw [he'] at he; simp at he
      | some e' =>
        rw [he'] at he
        simp only [Option.map_some, Option.some.injEq] at he
        refine ⟨h, b', rfl, by omega, e', rfl, fun x hx => ?_⟩
        have := het (x + δ) (by rw [← he, hx]; rfl)
        omega
  · rintro ⟨h, b, hb, hbt, e, he, het⟩
    refine ⟨h, b + δ, by rw [hb]; rfl, by omega, e.map (· + δ), by rw [he]; rfl, fun x hx => ?_⟩
    cases e with
    | none => simp at hx
    | some y =>
      simp only [Option.map_some, Option.some.injEq] at hx
      have := het y rfl
      omega

end

/-- The end events of a sequence of sensible documents are after zero. -/
theorem ends_positive (cfg : Cfg) (agid : Option String) (ds : List Doc) (hds : ∀ d ∈ ds, WellTimed d) :
    ∀ e ∈ (run (State.init cfg agid) ds).1.timeline, e.kind = .fin → 0 < e.time :=
  (Weak.run ds (Weak.init cfg agid) hds).core.pos

end Verif.Seq
