import Verif.Time.Parsing

/-!
C85: the times of a document are read according to its own time base, whatever was parsed before it or is being
parsed meanwhile.
-/
namespace Verif.Time

/-! ### Specification -/

/-- One thing for each, in order. -/
def Each {α β : Type} (R : α → β → Prop) : List α → List β → Prop
  | [], [] => True
  | a :: as, b :: bs => R a b ∧ Each R as bs
  | _, _ => False

/-- The formats that the elements of the head take, under any time base. -/
def HeadFormat : HeadTime → TimeType → Prop
  | .startOfProgramme, ty => ty = .limitedClock ∨ ty = .timecount ∨ ty = .smpte
  | .mediaDuration, ty => ty = .timecount ∨ ty = .fullClock

/-- The times of the document `d` with time base `b`, read as these formats: every time of the head has a format
its element takes, every timing attribute one that the time base permits (`dur` takes no SMPTE times). -/
def ReadAs (b : TimeBase) (d : TimedDoc) (tys : List TimeType) : Prop :=
  ∃ hs bs, tys = hs ++ bs ∧
    Each (fun h ty => HeadFormat h.1 ty ∧ pattern ty h.2 = true) d.head hs ∧
    Each (fun a ty => Permitted b ty ∧ (a.1 = .dur → ty ≠ .smpte) ∧ pattern ty a.2 = true) d.body bs

/-- The step of a schedule is not one of thread `i`, or lets it go on. -/
def LetsGo (i : Nat) (s : Nat × Act) : Prop := s.1 = i → s.2 = .go

/-! ### The formats do not overlap under a time base -/

theorem clockTail_cons {l : List Char} (h : clockTail l = true) : ∃ r, l = ':' :: r := by
  match l, h with
  | c1 :: m1 :: m2 :: c2 :: s1 :: s2 :: tail, h =>
    simp only [clockTail, Bool.and_eq_true, decide_eq_true_eq] at h
    exact ⟨_, by rw [h.1.1]⟩
  | [], h | [_], h | [_, _], h | [_, _, _], h | [_, _, _, _], h | [_, _, _, _, _], h => simp [clockTail] at h

theorem isDig_colon : isDig ':' = false := by decide

/-- The text of a clock time: digits, then a colon. -/
theorem pattern_colon {ty : TimeType} {text : List Char} (hty : ty ≠ .timecount) (h : pattern ty text = true) :
    ∃ r, text.dropWhile isDig = ':' :: r := by
  cases ty with
  | timecount => exact absurd rfl hty
  | fullClock =>
    simp only [pattern, Bool.and_eq_true] at h
    exact clockTail_cons h.2
  | limitedClock =>
    match text, h with
    | [], h | [_], h => simp [pattern] at h
    | h1 :: h2 :: rest, h =>
      simp only [pattern, Bool.and_eq_true] at h
      obtain ⟨r, hr⟩ := clockTail_cons h.2
      exact ⟨r, by rw [hr]; simp [List.dropWhile, h.1.1, h.1.2, isDig_colon]⟩
  | smpte =>
    unfold pattern at h
    split at h <;> try contradiction
    rename_i heq
    cases heq
    simp only [List.all_cons, Bool.and_eq_true, decide_eq_true_eq] at h
    obtain ⟨⟨⟨h1, _, _⟩, h2⟩, _⟩ := h
    obtain ⟨a, b, _⟩ := h2
    rw [h1]
    simp only [List.dropWhile, a, b, isDig_colon]
    exact ⟨_, rfl⟩

theorem pattern_count {text : List Char} (h : pattern .timecount text = true) :
    ∀ r, text.dropWhile isDig ≠ ':' :: r := by
  intro r hr
  simp only [pattern, hr, Bool.and_eq_true] at h
  have := h.2
  simp [isUnit] at this

/-- A text with three colons is no clock time. -/
theorem pattern_smpte {text : List Char} (h : pattern .smpte text = true) (ty : TimeType)
    (h' : pattern ty text = true) : ty = .smpte := by
  have h0 := h
  unfold pattern at h
  split at h <;> try contradiction
  rename_i heq
  cases heq
  simp only [List.all_cons, Bool.and_eq_true, decide_eq_true_eq] at h
  obtain ⟨⟨⟨h1, h2, h3⟩, ha, hb, _⟩, _⟩ := h
  cases ty with
  | smpte => rfl
  | timecount =>
    obtain ⟨r, hr⟩ := pattern_colon (by decide) h0
    exact absurd hr (pattern_count h' r)
  | limitedClock =>
    simp only [pattern, Bool.and_eq_true, clockTail, h3] at h'
    have := h'.2.2
    simp [optFrac] at this
  | fullClock =>
    rw [h1, h2, h3] at h'
    simp only [pattern, Bool.and_eq_true, List.dropWhile, ha, hb, isDig_colon, clockTail] at h'
    have := h'.2.2
    simp [optFrac] at this

theorem pattern_unique {t t' : TimeType} {text : List Char} (h : pattern t text = true) (h' : pattern t' text = true) :
    t = t' ∨ (t = .fullClock ∧ t' = .limitedClock) ∨ (t = .limitedClock ∧ t' = .fullClock) := by
  by_cases hs : t = .smpte
  · rw [hs] at h; exact Or.inl (by rw [hs, pattern_smpte h t' h'])
  by_cases hs' : t' = .smpte
  · rw [hs'] at h'; exact Or.inl (by rw [hs', pattern_smpte h' t h])
  by_cases hc : t = .timecount
  · by_cases hc' : t' = .timecount
    · exact Or.inl (by rw [hc, hc'])
    · obtain ⟨r, hr⟩ := pattern_colon hc' h'
      rw [hc] at h
      exact absurd hr (pattern_count h r)
  by_cases hc' : t' = .timecount
  · obtain ⟨r, hr⟩ := pattern_colon hc h
    rw [hc'] at h'
    exact absurd hr (pattern_count h' r)
  cases t <;> cases t' <;> simp_all

theorem permitted_unique {b : TimeBase} {t t' : TimeType} {text : List Char} (hp : Permitted b t)
    (hp' : Permitted b t') (h : pattern t text = true) (h' : pattern t' text = true) : t = t' := by
  rcases pattern_unique h h' with e | ⟨e, e'⟩ | ⟨e, e'⟩
  · exact e
  all_goals
    subst e; subst e'
    simp only [Permitted] at hp hp'
    subst hp; cases hp'

theorem head_unique {hd : HeadTime} {t t' : TimeType} {text : List Char} (hp : HeadFormat hd t)
    (hp' : HeadFormat hd t') (h : pattern t text = true) (h' : pattern t' text = true) : t = t' := by
  rcases pattern_unique h h' with e | ⟨e, e'⟩ | ⟨e, e'⟩
  · exact e
  all_goals
    subst e; subst e'
    cases hd <;> simp [HeadFormat] at hp hp'

/-! ### A document by itself -/

/-- What the events of a document come to, from this context. -/
def runEvs (c : Cell) : List Ev → Option (Cell × List TimeType)
  | [] => some (c, [])
  | e :: es =>
    match meet c e with
    | none => none
    | some (c', v) => (runEvs c' es).map (fun p => (p.1, v.toList ++ p.2))

theorem runEvs_append (c : Cell) (l l' : List Ev) :
    runEvs c (l ++ l') = (runEvs c l).bind (fun p => (runEvs p.1 l').map (fun q => (q.1, p.2 ++ q.2))) := by
  induction l generalizing c with
  | nil => simp [runEvs]
  | cons e l ih =>
    simp only [List.cons_append, runEvs]
    cases meet c e with
    | none => rfl
    | some cv =>
      simp only [ih]
      cases runEvs cv.1 l with
      | none => rfl
      | some p =>
        cases h : runEvs p.1 l' with
        | none => simp [h]
        | some q => simp [h]

/-- The context while the head is read. -/
def inHead (b : TimeBase) : Cell := ⟨some true, ⟨some b, none⟩⟩
def inBody (b : TimeBase) (a : Option TimeAttr) : Cell := ⟨some true, ⟨some b, a⟩⟩

theorem makeUnion_head (b : TimeBase) (text : List Char) (l : List TimeType) :
    makeUnion (inHead b) text l = l.find? (fun ty => pattern ty text) := by
  induction l with
  | nil => rfl
  | cons ty l ih =>
    have h : mayMake (inHead b) ty = .granted := rfl
    simp only [makeUnion, h, List.find?, ih]
    cases pattern ty text <;> rfl

theorem makeUnion_body (b : TimeBase) (a : TimeAttr) (text : List Char) (l : List TimeType) :
    makeUnion (inBody b (some a)) text l =
      l.find? (fun ty => decide (b ∈ compatible ty a) && pattern ty text) := by
  induction l with
  | nil => rfl
  | cons ty l ih =>
    have h : mayMake (inBody b (some a)) ty = if b ∈ compatible ty a then .granted else .refused := rfl
    simp only [makeUnion, h, List.find?, ih]
    by_cases hb : b ∈ compatible ty a
    · rw [if_pos hb]
      cases pattern ty text <;> simp [hb]
    · rw [if_neg hb]
      simp [hb]

theorem head_find {h : HeadTime} {text : List Char} (ty : TimeType) :
    (headUnion h).find? (fun ty => pattern ty text) = some ty ↔ HeadFormat h ty ∧ pattern ty text = true := by
  have hm : ∀ ty, ty ∈ headUnion h ↔ HeadFormat h ty := by intro ty; cases h <;> simp [headUnion, HeadFormat]
  constructor
  · intro hf
    exact ⟨(hm ty).1 (List.mem_of_find?_eq_some hf), List.find?_some (p := fun ty => pattern ty text) hf⟩
  · rintro ⟨h1, h2⟩
    cases hf : (headUnion h).find? (fun ty => pattern ty text) with
    | none =>
      have := List.find?_eq_none.1 hf ty ((hm ty).2 h1)
      exact absurd h2 this
    | some ty' =>
      have h3 : pattern ty' text = true := List.find?_some (p := fun ty => pattern ty text) hf
      rw [head_unique ((hm ty').1 (List.mem_of_find?_eq_some hf)) h1 h3 h2]

theorem body_find {b : TimeBase} {a : TimeAttr} {text : List Char} (ty : TimeType) :
    parseTiming b a text = some ty ↔ Permitted b ty ∧ (a = .dur → ty ≠ .smpte) ∧ pattern ty text = true := by
  constructor
  · intro hf
    obtain ⟨h1, h2⟩ := (C50_parsed_format_is_permitted b a text).1 ty hf
    refine ⟨h1, ?_, h2⟩
    intro ha hs
    have := List.mem_of_find?_eq_some hf
    rw [ha, hs] at this
    simp [members'] at this
  · rintro ⟨h1, h2, h3⟩
    cases hf : parseTiming b a text with
    | none =>
      have := (C50_parsed_format_is_permitted b a text).2 hf ty h1 h2
      rw [h3] at this; cases this
    | some ty' =>
      obtain ⟨h4, h5⟩ := (C50_parsed_format_is_permitted b a text).1 ty' hf
      rw [permitted_unique h4 h1 h5 h3]

theorem runEvs_head (b : TimeBase) (l : List (HeadTime × List Char)) (p : Cell × List TimeType) :
    runEvs (inHead b) (l.map (fun h => .elem h.1 h.2)) = some p ↔
      p.1 = inHead b ∧ Each (fun h ty => HeadFormat h.1 ty ∧ pattern ty h.2 = true) l p.2 := by
  induction l generalizing p with
  | nil =>
    obtain ⟨c, ts⟩ := p
    cases ts with
    | nil => simp [runEvs, Each, eq_comm]
    | cons => simp [runEvs, Each]
  | cons h l ih =>
    have hm : meet (inHead b) (.elem h.1 h.2) =
        (makeUnion (inHead b) h.2 (headUnion h.1)).map (fun ty => (inHead b, some ty)) := rfl
    simp only [List.map_cons, runEvs, hm, makeUnion_head]
    obtain ⟨c, ts⟩ := p
    cases hf : (headUnion h.1).find? (fun ty => pattern ty h.2) with
    | none =>
      simp only [Option.map_none]
      constructor
      · intro e; cases e
      · rintro ⟨_, h2⟩
        cases ts with
        | nil => exact h2.elim
        | cons ty ts =>
          have := (head_find ty).2 h2.1
          rw [hf] at this; cases this
    | some ty =>
      simp only [Option.map_some, Option.toList_some, Option.map_eq_some_iff]
      constructor
      · rintro ⟨q, hq, e⟩
        obtain ⟨h1, h2⟩ := (ih q).1 hq
        cases e
        exact ⟨h1, (head_find ty).1 hf, h2⟩
      · rintro ⟨h1, h2⟩
        cases ts with
        | nil => exact h2.elim
        | cons ty' ts =>
          have := (head_find ty').2 h2.1
          rw [hf] at this
          cases this
          exact ⟨(c, ts), (ih (c, ts)).2 ⟨h1, h2.2⟩, rfl⟩

theorem runEvs_body (b : TimeBase) (l : List (TimeAttr × List Char)) (x : Option TimeAttr) (ts : List TimeType) :
    (∃ c, runEvs (inBody b x) (l.map (fun h => .attr h.1 h.2)) = some (c, ts)) ↔
      Each (fun a ty => Permitted b ty ∧ (a.1 = .dur → ty ≠ .smpte) ∧ pattern ty a.2 = true) l ts := by
  induction l generalizing x ts with
  | nil => cases ts <;> simp [runEvs, Each]
  | cons h l ih =>
    have hm : meet (inBody b x) (.attr h.1 h.2) =
        (makeUnion (inBody b (some h.1)) h.2 (members' h.1)).map (fun ty => (inBody b (some h.1), some ty)) := rfl
    have hp : (members' h.1).find? (fun ty => decide (b ∈ compatible ty h.1) && pattern ty h.2) =
        parseTiming b h.1 h.2 := rfl
    simp only [List.map_cons, runEvs, hm, makeUnion_body, hp]
    cases hf : parseTiming b h.1 h.2 with
    | none =>
      simp only [Option.map_none]
      constructor
      · rintro ⟨c, e⟩; cases e
      · intro h2
        cases ts with
        | nil => exact h2.elim
        | cons ty ts =>
          have := (body_find ty).2 h2.1
          rw [hf] at this; cases this
    | some ty =>
      simp only [Option.map_some, Option.toList_some, Option.map_eq_some_iff]
      constructor
      · rintro ⟨c, q, hq, e⟩
        have h2 := (ih (some h.1) q.2).1 ⟨q.1, hq⟩
        cases e
        exact ⟨(body_find ty).1 hf, h2⟩
      · intro h2
        cases ts with
        | nil => exact h2.elim
        | cons ty' ts =>
          have := (body_find ty').2 h2.1
          rw [hf] at this
          cases this
          obtain ⟨c, hc⟩ := (ih (some h.1) ts).2 h2.2
          exact ⟨c, (c, ts), hc, rfl⟩

/-- The context at the start of a parse. -/
def entered : Cell := ⟨some true, ⟨none, none⟩⟩

/-- What parsing a document comes to. -/
def outcome (call : Call) : Option (List TimeType) := (runEvs entered call.events).map (·.2)

theorem outcome_live {b : TimeBase} {d : TimedDoc} (hb : d.base = some b) (tys : List TimeType) :
    outcome (.live d) = some tys ↔ ReadAs b d tys := by
  have he : (Call.live d).events =
      .base b :: (d.head.map (fun h => Ev.elem h.1 h.2) ++ d.body.map (fun h => .attr h.1 h.2)) := by
    simp [Call.events, TimedDoc.events, hb]
  have hm : meet entered (.base b) = some (inHead b, none) := rfl
  simp only [outcome, he, runEvs, hm, runEvs_append, Option.toList_none, List.nil_append, Option.map_eq_some_iff,
    ReadAs, Option.bind_eq_some_iff]
  constructor
  · rintro ⟨_, ⟨p, ⟨q, hq, r, hr, e⟩, e'⟩, e''⟩
    obtain ⟨h1, h2⟩ := (runEvs_head b d.head q).1 hq
    rw [h1] at hr
    have h3 := (runEvs_body b d.body none r.2).1 ⟨r.1, hr⟩
    refine ⟨q.2, r.2, ?_, h2, h3⟩
    rw [← e'', ← e', ← e]
  · rintro ⟨hs, bs, rfl, h1, h2⟩
    obtain ⟨c, hc⟩ := (runEvs_body b d.body none bs).2 h2
    exact ⟨_, ⟨_, ⟨(inHead b, hs), (runEvs_head b d.head (inHead b, hs)).2 ⟨rfl, h1⟩, (c, bs), hc, rfl⟩, rfl⟩, rfl⟩

theorem makeUnion_keyError (text : List Char) (l : List TimeType) (x : Option TimeAttr) :
    makeUnion ⟨some true, ⟨none, x⟩⟩ text l = none := by
  cases l <;> rfl

theorem outcome_noBase {d : TimedDoc} (hb : d.base = none) (tys : List TimeType) :
    outcome (.live d) = some tys ↔ d.head = [] ∧ d.body = [] ∧ tys = [] := by
  cases hh : d.head with
  | cons h l =>
    have hm : meet entered (.elem h.1 h.2) = none := by
      have : meet entered (.elem h.1 h.2) = (makeUnion ⟨some true, ⟨none, none⟩⟩ h.2 (headUnion h.1)).map
        (fun ty => (entered, some ty)) := rfl
      rw [this, makeUnion_keyError]; rfl
    simp [outcome, Call.events, TimedDoc.events, hb, hh, runEvs, hm]
  | nil =>
    cases hbd : d.body with
    | nil => simp [outcome, Call.events, TimedDoc.events, hb, hh, hbd, runEvs, eq_comm]
    | cons h l =>
      have hm : meet entered (.attr h.1 h.2) = none := by
        have : meet entered (.attr h.1 h.2) = (makeUnion ⟨some true, ⟨none, some h.1⟩⟩ h.2 (members' h.1)).map
          (fun ty => (⟨some true, ⟨none, some h.1⟩⟩, some ty)) := rfl
        rw [this, makeUnion_keyError]; rfl
      simp [outcome, Call.events, TimedDoc.events, hb, hh, hbd, runEvs, hm]

theorem outcome_ebuttd (d : TimedDoc) (tys : List TimeType) :
    outcome (.ebuttd d) = some tys ↔ d.body = [] ∧ tys = [] := by
  cases hbd : d.body with
  | nil => simp [outcome, Call.events, TimedDoc.eventsD, hbd, runEvs, eq_comm]
  | cons h l =>
    have hm : meet entered (.attrD h.2) = none := rfl
    simp [outcome, Call.events, TimedDoc.eventsD, hbd, runEvs, hm]

/-! ### Any schedule -/

/-- What the log of a thread may hold, and what the context of a thread may be. -/
structure Sound (i : Nat) (t : Thread) : Prop where
  log : ∀ call r, Done.parsed call r ∈ t.log → r = outcome call
  idle : t.busy = none → t.cell.parsing = some false ∨
    (i ≠ 0 ∧ t.cell.parsing = none ∧ ∀ call r, Done.parsed call r ∉ t.log)
  busy : ∀ w, t.busy = some w → ∃ pre, w.call.events = pre ++ w.rest ∧ runEvs entered pre = some (t.cell, w.times)

theorem sound_act {i : Nat} {t : Thread} (h : Sound i t) (a : Act) : Sound i (t.act a) := by
  cases a with
  | parse call =>
    cases hb : t.busy with
    | some w => simp only [Thread.act, hb]; exact h
    | none =>
      simp only [Thread.act, hb]
      refine ⟨h.log, by simp, ?_⟩
      intro w hw
      cases hw
      exact ⟨[], rfl, rfl⟩
  | make ty text =>
    cases hb : t.busy with
    | some w => simp only [Thread.act, hb]; exact h
    | none =>
      simp only [Thread.act, hb]
      refine ⟨?_, ?_, ?_⟩
      · intro call r hm
        simp only [List.mem_append, List.mem_singleton] at hm
        rcases hm with hm | hm
        · exact h.log call r hm
        · cases hm
      · intro hi
        rcases h.idle hb with h1 | ⟨h1, h2, h3⟩
        · exact Or.inl h1
        · refine Or.inr ⟨h1, h2, ?_⟩
          intro call r hm
          simp only [List.mem_append, List.mem_singleton] at hm
          rcases hm with hm | hm
          · exact h3 call r hm
          · cases hm
      · intro w hw; simp at hw
  | go =>
    cases hb : t.busy with
    | none => simp only [Thread.act, hb]; exact h
    | some w =>
      obtain ⟨pre, h1, h2⟩ := h.busy w hb
      obtain ⟨call, rest, times⟩ := w
      simp only at h1 h2
      cases rest with
      | nil =>
        simp only [Thread.act, hb]
        refine ⟨?_, fun _ => Or.inl rfl, by intro w hw; cases hw⟩
        intro call' r hm
        simp only [List.mem_append, List.mem_singleton] at hm
        rcases hm with hm | hm
        · exact h.log call' r hm
        · cases hm
          simp [outcome, h1, h2]
      | cons e rest =>
        cases hm : meet t.cell e with
        | none =>
          simp only [Thread.act, hb, hm]
          refine ⟨?_, fun _ => Or.inl rfl, by intro w hw; cases hw⟩
          intro call' r hm'
          simp only [List.mem_append, List.mem_singleton] at hm'
          rcases hm' with hm' | hm'
          · exact h.log call' r hm'
          · cases hm'
            simp [outcome, h1, runEvs_append, h2, runEvs, hm]
        | some cv =>
          simp only [Thread.act, hb, hm]
          refine ⟨h.log, by simp, ?_⟩
          intro w hw
          cases hw
          refine ⟨pre ++ [e], by simp [h1], ?_⟩
          rw [runEvs_append, h2]
          simp [runEvs, hm]

theorem sound_run (l : List (Nat × Act)) (ts : Threads) (h : ∀ i, Sound i (ts i)) :
    ∀ i, Sound i (runThreads ts l i) := by
  induction l generalizing ts with
  | nil => exact h
  | cons s l ih =>
    obtain ⟨i, a⟩ := s
    apply ih
    intro j
    by_cases hj : j = i
    · rw [hj]
      simp only [if_true]
      exact sound_act (h i) a
    · simp only [if_neg hj]
      exact h j

theorem sound0 (i : Nat) : Sound i (threads0 i) := by
  refine ⟨(by intro call r h; cases h), ?_, (by intro w h; cases h)⟩
  intro _
  by_cases hi : i = 0
  · left; simp [threads0, hi]
  · right; exact ⟨hi, by simp [threads0, hi], (by intro call r h; cases h)⟩

/-- C85: after any schedule of parses (also failing ones) in any number of threads, with values made in between,
every document with a time base that was parsed has been read as its own time base says: the parse succeeded
with these formats exactly if the document's times have them and its own time base permits them. -/
theorem C85_read_by_own_time_base (l : List (Nat × Act)) (i : Nat) (d : TimedDoc) (b : TimeBase)
    (r : Option (List TimeType)) (h : Done.parsed (.live d) r ∈ (runThreads threads0 l i).log)
    (hb : d.base = some b) (tys : List TimeType) : r = some tys ↔ ReadAs b d tys := by
  rw [(sound_run l threads0 sound0 i).log _ _ h]
  exact outcome_live hb tys

/-- C85: under a time base a text has at most one format, so how a document is read is determined. -/
theorem C85_reading_unique (b : TimeBase) (d : TimedDoc) (tys tys' : List TimeType) (h : ReadAs b d tys)
    (h' : ReadAs b d tys') : tys = tys' := by
  have e := (outcome_live (d := { d with base := some b }) rfl tys).2 h
  have e' := (outcome_live (d := { d with base := some b }) rfl tys').2 h'
  rw [e] at e'
  injection e'

/-- C85: a document without a time base is refused if it contains any time. -/
theorem C85_no_time_base (l : List (Nat × Act)) (i : Nat) (d : TimedDoc) (r : Option (List TimeType))
    (h : Done.parsed (.live d) r ∈ (runThreads threads0 l i).log) (hb : d.base = none) (tys : List TimeType) :
    r = some tys ↔ d.head = [] ∧ d.body = [] ∧ tys = [] := by
  rw [(sound_run l threads0 sound0 i).log _ _ h]
  exact outcome_noBase hb tys

theorem evs_go (n : Nat) : ∀ (i : Nat) (ts : Threads) (l : List (Nat × Act)) (w : Busy), (ts i).busy = some w →
    w.rest.length < n → (∀ s ∈ l, LetsGo i s) → (l.filter (fun s => s.1 == i)).length = n →
    ∃ r, (runThreads ts l i).log = (ts i).log ++ [.parsed w.call r] ∧ (runThreads ts l i).busy = none := by
  have idle : ∀ (l : List (Nat × Act)) (i : Nat) (ts : Threads), (ts i).busy = none → (∀ s ∈ l, LetsGo i s) →
      (runThreads ts l i).log = (ts i).log ∧ (runThreads ts l i).busy = none := by
    intro l
    induction l with
    | nil => intro i ts h _; exact ⟨rfl, h⟩
    | cons s l ih =>
      obtain ⟨j, a⟩ := s
      intro i ts h hl
      simp only [runThreads]
      have hl' := fun s hs => hl s (List.mem_cons_of_mem _ hs)
      by_cases hij : i = j
      · have ha : a = .go := hl (j, a) (List.mem_cons_self ..) hij.symm
        have e : (if i = j then (ts j).act a else ts i) = ts i := by
          rw [if_pos hij, ha, ← hij]
          simp [Thread.act, h]
        have := ih i (fun k => if k = j then (ts j).act a else ts k) (by simp only [e, h]) hl'
        simp only [e] at this
        exact this
      · have e : (if i = j then (ts j).act a else ts i) = ts i := if_neg hij
        have := ih i (fun k => if k = j then (ts j).act a else ts k) (by simp only [e, h]) hl'
        simp only [e] at this
        exact this
  intro i ts l
  induction l generalizing n ts with
  | nil => intro w _ hw _ hn; simp at hn; omega
  | cons s l ih =>
    obtain ⟨j, a⟩ := s
    intro w hw hlt hl hn
    have hl' := fun s hs => hl s (List.mem_cons_of_mem _ hs)
    simp only [runThreads]
    by_cases hij : i = j
    · have ha : a = .go := hl (j, a) (List.mem_cons_self ..) hij.symm
      subst hij
      subst ha
      simp only [List.filter_cons, beq_self_eq_true, if_true, List.length_cons] at hn
      cases hr : w.rest with
      | nil =>
        have ha : (ts i).act .go = ⟨exitCtx (ts i).cell, none,
            (ts i).log ++ [.parsed w.call (some w.times)]⟩ := by simp only [Thread.act, hw, hr]
        have := idle l i (fun k => if k = i then (ts i).act .go else ts k) (by simp only [if_true, ha]) hl'
        simp only [if_true, ha] at this
        refine ⟨some w.times, ?_, ?_⟩
        · rw [ha]; exact this.1
        · rw [ha]; exact this.2
      | cons ev rest =>
        cases hm : meet (ts i).cell ev with
        | none =>
          have ha : (ts i).act .go = ⟨exitCtx (ts i).cell, none,
              (ts i).log ++ [.parsed w.call none]⟩ := by simp only [Thread.act, hw, hr, hm]
          have := idle l i (fun k => if k = i then (ts i).act .go else ts k) (by simp only [if_true, ha]) hl'
          simp only [if_true, ha] at this
          refine ⟨none, ?_, ?_⟩
          · rw [ha]; exact this.1
          · rw [ha]; exact this.2
        | some cv =>
          have ha : (ts i).act .go = ⟨cv.1, some ⟨w.call, rest, w.times ++ cv.2.toList⟩,
              (ts i).log⟩ := by simp only [Thread.act, hw, hr, hm]
          rw [hr] at hlt
          simp only [List.length_cons] at hlt
          have := ih (n - 1) (fun k => if k = i then (ts i).act .go else ts k)
            ⟨w.call, rest, w.times ++ cv.2.toList⟩ (by simp only [if_true, ha])
            (by simp only; omega) hl' (by omega)
          simp only [if_true, ha] at this
          rw [ha]
          exact this
    · have hf : (decide (j = i)) = false := by simp; exact fun h => hij h.symm
      have hn' : (l.filter (fun s => s.1 == i)).length = n := by
        rw [← hn, List.filter_cons]
        have : ((j, a).1 == i) = false := by simp; exact fun h => hij h.symm
        rw [this]; rfl
      have e : (if i = j then (ts j).act a else ts i) = ts i := if_neg hij
      have := ih n (fun k => if k = j then (ts j).act a else ts k) w (by simp only [e, hw]) hlt hl' hn'
      simp only [e] at this
      exact this

/-- C85: a parse that is let go on ends, whatever other threads do meanwhile, and says how the document was read:
it takes at most one step for each time and two more. -/
theorem C85_parse_ends (l : List (Nat × Act)) (i : Nat) (d : TimedDoc) (more : List (Nat × Act))
    (hidle : (runThreads threads0 l i).busy = none) (hmore : ∀ s ∈ more, LetsGo i s)
    (hlen : d.head.length + d.body.length + 2 ≤ (more.filter (fun s => s.1 == i)).length) :
    ∃ r, (runThreads threads0 (l ++ (i, .parse (.live d)) :: more) i).log =
      (runThreads threads0 l i).log ++ [.parsed (.live d) r] := by
  have hrun : ∀ (l : List (Nat × Act)) (ts : Threads) (m : List (Nat × Act)),
      runThreads ts (l ++ m) = runThreads (runThreads ts l) m := by
    intro l
    induction l with
    | nil => intro ts m; rfl
    | cons s l ih => intro ts m; exact ih _ m
  rw [hrun]
  simp only [runThreads]
  generalize hts : runThreads threads0 l = ts at hidle ⊢
  have ha : (ts i).act (.parse (.live d)) = ⟨enterCtx (ts i).cell,
      some ⟨.live d, (Call.live d).events, []⟩, (ts i).log⟩ := by simp only [Thread.act, hidle]
  have hev : (Call.live d).events.length < (more.filter (fun s => s.1 == i)).length := by
    have : (Call.live d).events.length ≤ d.head.length + d.body.length + 1 := by
      simp only [Call.events, TimedDoc.events, List.length_append, List.length_map]
      cases d.base <;> simp <;> omega
    omega
  obtain ⟨r, h1, _⟩ := evs_go _ i (fun j => if j = i then (ts i).act (.parse (.live d)) else ts j) more
    ⟨.live d, (Call.live d).events, []⟩ (by simp [ha]) hev hmore rfl
  exact ⟨r, by rw [h1]; simp [ha]⟩

/-- C85: in a thread that imported the bindings, or has parsed something (even a document that was refused), a
program can make a time of any format that fits the text: no time base restricts it. -/
theorem C85_made_partial (l : List (Nat × Act)) (i : Nat) (ty : TimeType) (text : List Char)
    (hidle : (runThreads threads0 l i).busy = none)
    (hi : i = 0 ∨ ∃ call r, Done.parsed call r ∈ (runThreads threads0 l i).log) :
    (runThreads threads0 (l ++ [(i, .make ty text)]) i).log =
      (runThreads threads0 l i).log ++ [.made ty text (pattern ty text)] := by
  have hrun : ∀ (l : List (Nat × Act)) (ts : Threads) (m : List (Nat × Act)),
      runThreads ts (l ++ m) = runThreads (runThreads ts l) m := by
    intro l
    induction l with
    | nil => intro ts m; rfl
    | cons s l ih => intro ts m; exact ih _ m
  rw [hrun]
  have hs := (sound_run l threads0 sound0 i).idle hidle
  have hp : (runThreads threads0 l i).cell.parsing = some false := by
    rcases hs with h | ⟨h1, _, h3⟩
    · exact h
    · rcases hi with h | ⟨call, r, h⟩
      · exact absurd h h1
      · exact absurd h (h3 call r)
  simp only [runThreads, if_true, Thread.act, hidle]
  have : mayMake (runThreads threads0 l i).cell ty = .granted := by
    simp [mayMake, getCtx, hp]
  rw [this]
  simp

/-- C85 fails for values made in another thread before anything was parsed there: every format is refused, as the
context of that thread does not exist. -/
theorem C85_false_fresh_thread :
    (runThreads threads0 [(0, .make .fullClock "10:00:00".toList), (1, .make .fullClock "10:00:00".toList)] 0).log =
      [.made .fullClock "10:00:00".toList true] ∧
    (runThreads threads0 [(0, .make .fullClock "10:00:00".toList), (1, .make .fullClock "10:00:00".toList)] 1).log =
      [.made .fullClock "10:00:00".toList false] := by decide

/-- C85 fails for EBU-TT-D: whatever was done before, a document with any timing attribute is refused, as its
time base never reaches the context. -/
theorem C85_false_ebuttd (l : List (Nat × Act)) (i : Nat) (d : TimedDoc) (r : Option (List TimeType))
    (h : Done.parsed (.ebuttd d) r ∈ (runThreads threads0 l i).log) (hd : d.body ≠ []) : r = none := by
  rw [(sound_run l threads0 sound0 i).log _ _ h]
  cases ho : outcome (.ebuttd d) with
  | none => rfl
  | some tys => exact absurd ((outcome_ebuttd d tys).1 ho).1 hd

/-- A media document and a clock document, and one that is refused. -/
def mediaDoc : TimedDoc := ⟨some .media, [(.startOfProgramme, "10:00:00:00".toList)],
  [(.begin, "10:00:00".toList), (.dur, "5s".toList), (.end, "100:00:00.5".toList)]⟩
def clockDoc : TimedDoc := ⟨some .clock, [], [(.begin, "10:00:00".toList), (.dur, "00:00:05".toList)]⟩
def longDoc : TimedDoc := ⟨some .clock, [], [(.begin, "100:00:00".toList)]⟩

/-- Non-vacuity: two threads parse at the same time, one of them a document that is refused and then another. -/
example :
    let l : List (Nat × Act) := [(0, .parse (.live mediaDoc)), (1, .parse (.live longDoc)), (0, .go), (1, .go),
      (0, .go), (1, .go), (1, .parse (.live clockDoc)), (0, .go), (1, .go), (1, .go), (0, .go), (0, .go), (1, .go),
      (1, .go), (0, .go)]
    (runThreads threads0 l 0).log =
      [.parsed (.live mediaDoc) (some [.smpte, .fullClock, .timecount, .fullClock])] ∧
    (runThreads threads0 l 1).log =
      [.parsed (.live longDoc) none, .parsed (.live clockDoc) (some [.limitedClock, .limitedClock])] ∧
    Done.parsed (.ebuttd mediaDoc) none ∈ (runThreads threads0 [(2, .parse (.ebuttd mediaDoc)), (2, .go)] 2).log ∧
    Done.parsed (.live { mediaDoc with base := none }) none ∈
      (runThreads threads0 [(2, .parse (.live { mediaDoc with base := none })), (2, .go)] 2).log := by
  decide +kernel

end Verif.Time
