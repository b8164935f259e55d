import Verif.Mark.Encoded
import Verif.Convert.ChainProps
import Verif.Doc.SegmentProps

/-! Cases for C109: examples that meet the assumptions of the theorems, and documents for which the claim fails. -/
namespace Verif.Mark

open Verif.Doc (Node Att Kind Lab Comp Win Env Item sec exEnv)

/-! ### Examples -/

/-- An English document: a body of one agent, a div with an agent, one p in French with preserved white space, with a span in
German, and one p with a role. -/
def exDoc : MDoc Att :=
  { lang := some "en".toList, space := none, body :=
    .elem ({ kind := .body }, { agent := some "a0".toList, role := some "dialog".toList }) [
      .elem ({ kind := .div, beg := sec 1 }, { agent := some "a1".toList }) [
        .elem ({ kind := .p, id := some "p1".toList, beg := sec 0, fin := sec 4 },
            { lang := some "fr".toList, space := some "preserve".toList }) [
          .elem ({ kind := .span }, {}) [.text "un".toList],
          .elem ({ kind := .span, beg := sec 1 }, { lang := some "de".toList, agent := some "a2".toList }) [.text "zwei".toList]],
        .elem ({ kind := .p, id := some "p2".toList, beg := sec 4, fin := sec 8 }, { role := some "music".toList }) [
          .text "three".toList]]] }

def exArounds : Around × Around × Around :=
  (⟨some "fr".toList, some "preserve".toList, ["a0".toList, "a1".toList], ["dialog".toList]⟩,
   ⟨some "de".toList, some "preserve".toList, ["a0".toList, "a1".toList, "a2".toList], ["dialog".toList]⟩,
   ⟨some "en".toList, none, ["a0".toList, "a1".toList], ["dialog".toList, "music".toList]⟩)

/-- The validated document. -/
def exValid : MDoc Lab := ((validate 0 exDoc).toOption).getD { lang := none, space := none, body := .br }

theorem exValid_eq : validate 0 exDoc = .ok exValid := by
  unfold exValid
  cases h : validate 0 exDoc with
  | ok o => rfl
  | error e => obtain ⟨o, ho⟩ := validate_exists 0 exDoc; rw [h] at ho; cases ho

theorem exDoc_marked : Marked Att.kind exDoc.body := by
  simp [exDoc, Marked, MarkedL]

theorem exDoc_roles : NoDivRole Att.kind exDoc.body := by
  simp [exDoc, NoDivRole, NoDivRoleL]

theorem exDoc_bodied : Bodied Att.kind exDoc.body :=
  ⟨⟨_, _, rfl, rfl, by intro k hk; simp only [List.mem_singleton] at hk; exact ⟨_, _, hk, rfl⟩⟩, exDoc_marked⟩

theorem exValid_marked : Marked lkind exValid.body := by
  have h := exValid_eq
  generalize exValid = o at h
  obtain ⟨h1, _⟩ := validated_body h exDoc_marked
  exact h1

/-- `C109_segment_partial` and `C109_at_each_instant_partial` apply to the example and a window from 3 s to 6 s (with
`exValid_marked`). -/
example : exDoc.space = none ∧ Marked Att.kind exDoc.body ∧ Doc.Sane (forget exDoc.body) ∧ Doc.shaped (forget exDoc.body) = true ∧
    Doc.unmixed (forget exDoc.body) = true ∧ Doc.wellTimed (forget exDoc.body) = true ∧ Doc.inMs (forget exDoc.body) = true ∧
    Doc.shaped (Doc.erase (forget exValid.body)) = true ∧
    (segmentDoc (exEnv 3000000 6000000) exValid).toOption.map (fun s => s.said.filter shows) =
      some [(.text "un".toList, exArounds.1), (.text "zwei".toList, exArounds.2.1), (.text "three".toList, exArounds.2.2)] ∧
    ((segmentDoc (exEnv 3000000 6000000) exValid).toOption.bind (fun s => (validate 0 s).toOption)).map
        (fun s => [2999999, 3000000, 4999999, 5000000, 6000000].map s.shownAt) =
      some [[], [([.text "un".toList], exArounds.1), ([.text "zwei".toList], exArounds.2.1)],
        [([.text "un".toList], exArounds.1), ([.text "zwei".toList], exArounds.2.1)],
        [([.text "three".toList], exArounds.2.2)], []] := by
  refine ⟨rfl, exDoc_marked, Doc.sane_of rfl (by decide) (by decide), by decide, by decide, by decide, by decide,
    by decide +kernel, by decide +kernel, by decide +kernel⟩

/-- `C109_convert_partial` applies to the example. -/
example : Bodied Att.kind exDoc.body ∧ NoDivRole Att.kind exDoc.body ∧
    (convert { base := .media, zero := 0, rd := Time.exactReader } exDoc).toOption.map DDoc.said =
      some [(.text "un".toList, exArounds.1), (.text "zwei".toList, exArounds.2.1), (.text "three".toList, exArounds.2.2)] :=
  ⟨exDoc_bodied, exDoc_roles, by decide +kernel⟩

/-- A document with one paragraph. -/
def exOne (b e : Nat) (text lang agent : String) : MDoc Att :=
  { lang := some "en".toList, space := none, body :=
    .elem ({ kind := .body }, { agent := some "a0".toList }) [.elem ({ kind := .div }, {}) [
      .elem ({ kind := .p, id := some "p".toList, beg := sec b, fin := sec e, style := ["s".toList] },
        { lang := some lang.toList, agent := some agent.toList }) [.text text.toList]]] }

def exRoot (d : Seq.Doc) : MDoc Att := if d.num = 1 then exOne 1 9 "un" "fr" "a1" else exOne 5 8 "zwei" "de" "a2"

def exMarked (d : Seq.Doc) : Held := { src := Doc.exSource (forget (exRoot d).body), root := exRoot d }

def exPart (d : MDoc Att) : Part := ⟨none, none, d⟩

theorem exOne_bodied (b e : Nat) (text lang agent : String) : Bodied Att.kind (exOne b e text lang agent).body :=
  ⟨⟨_, _, rfl, rfl, by intro k hk; simp only [List.mem_singleton] at hk; exact ⟨_, _, hk, rfl⟩⟩, by simp [exOne, Marked, MarkedL]⟩

/-- `C109_splice_partial` applies to the two documents. -/
example : (∀ p ∈ [exPart (exOne 1 9 "un" "fr" "a1"), exPart (exOne 5 8 "zwei" "de" "a2")], Bodied Att.kind p.doc.body ∧
      p.doc.lang = some "en".toList ∧ p.doc.space = none ∧ bodyMarks p.doc.body = (some "a0".toList, none)) ∧
    (splice [exPart (exOne 1 9 "un" "fr" "a1"), exPart (exOne 5 8 "zwei" "de" "a2")]).map (fun o => o.doc.said) =
      some [(.text "un".toList, ⟨some "fr".toList, none, ["a0".toList, "a1".toList], []⟩),
        (.text "zwei".toList, ⟨some "de".toList, none, ["a0".toList, "a2".toList], []⟩)] := by
  refine ⟨?_, by decide +kernel⟩
  intro p hp
  simp only [List.mem_cons, List.not_mem_nil, or_false] at hp
  rcases hp with rfl | rfl <;> exact ⟨exOne_bodied .., rfl, rfl, rfl⟩

/-- The state of a sequence with the two documents. -/
abbrev exState : Seq.State := (Seq.run (Seq.State.init Seq.exCfg none) Doc.exHeld).1

theorem exState_reach : Seq.Reach Seq.exCfg none exState Doc.exHeld.reverse := by
  have := Seq.reach_run Doc.exHeld (Seq.Reach.init (cfg := Seq.exCfg) (agid := none)) (by
    intro d hd
    simp only [Doc.exHeld, List.mem_cons, List.not_mem_nil, or_false] at hd
    rcases hd with rfl | rfl <;> exact ⟨by simp [Seq.mk], by intro e he; simp [Seq.mk] at he ⊢; omega⟩)
    (by simp) (by decide) (by decide +kernel)
  simpa using this

theorem exGood : ∀ d ∈ Doc.exHeld, (exMarked d).Good d 12000000 (some "en".toList) (some "a0".toList, none) := by
  intro d hd
  simp only [Doc.exHeld, List.mem_cons, List.not_mem_nil, or_false] at hd
  rcases hd with rfl | rfl
  · exact ⟨rfl, Doc.exSource_good (Doc.sane_of rfl (by decide) (by decide)) (by decide) (by decide) (by decide) (by decide)
      ⟨_, _, Doc.validateDoc_eq _ _, by decide +kernel, by decide +kernel⟩ _, (exOne_bodied 1 9 "un" "fr" "a1").marked, rfl, rfl, rfl⟩
  · exact ⟨rfl, Doc.exSource_good (Doc.sane_of rfl (by decide) (by decide)) (by decide) (by decide) (by decide) (by decide)
      ⟨_, _, Doc.validateDoc_eq _ _, by decide +kernel, by decide +kernel⟩ _, (exOne_bodied 5 8 "zwei" "de" "a2").marked, rfl, rfl, rfl⟩

/-- `C109_resequenced_partial` applies: the second document replaces the first at 5 s. -/
example : Seq.Reach Seq.exCfg none exState Doc.exHeld.reverse ∧ exState.docs = Doc.exHeld ∧
    (∀ d ∈ exState.docs, (exMarked d).Good d 12000000 (some "en".toList) (some "a0".toList, none)) ∧
    (extractSegment exState exMarked (some 2000000) (some 12000000)).map (fun out => [1999999, 2000000, 5000000, 8000000].map (shownBy out)) =
      some [[], [([.text "un".toList], ⟨some "fr".toList, none, ["a0".toList, "a1".toList], []⟩)],
        [([.text "zwei".toList], ⟨some "de".toList, none, ["a0".toList, "a2".toList], []⟩)], []] := by
  have h : exState.docs = Doc.exHeld := by decide +kernel
  exact ⟨exState_reach, h, by rw [h]; exact exGood, by decide +kernel⟩

theorem exMarked_roles (d : Seq.Doc) : NoDivRole Att.kind (exMarked d).root.body := by
  simp only [exMarked, exRoot]
  split <;> simp [exOne, NoDivRole, NoDivRoleL]

/-- `C109_encoded_sequence_partial` applies: what the encoder makes of the same extraction. -/
example : Seq.extractWindows exState (some 2000000) (some 12000000) =
      some [(Seq.mk 1 1 1000000 (some 9000000), some 2000000, some 5000000), (Seq.mk 2 2 5000000 (some 8000000), some 5000000, some 8000000)] ∧
    ((extractSegment exState exMarked (some 2000000) (some 12000000)).join.bind (fun p =>
        (convert { base := .media, zero := 0, rd := Time.exactReader } p.doc).toOption)).map DDoc.said =
      some [(.text "un".toList, ⟨some "fr".toList, none, ["a0".toList, "a1".toList], []⟩),
        (.text "zwei".toList, ⟨some "de".toList, none, ["a0".toList, "a2".toList], []⟩)] ∧
    (∀ d ∈ Doc.exHeld, ∀ doc, validate (exMarked d).src.avail (exMarked d).root = .ok doc →
      Proper doc ∧ doc.lang = some "en".toList ∧ bodyMarks doc.body = (some "a0".toList, none)) := by
  refine ⟨by decide +kernel, by decide +kernel, ?_⟩
  intro d hd doc hdoc
  have hg := exGood d hd
  obtain ⟨l, s, f, m⟩ := validate_ok hdoc
  obtain ⟨b1, b2⟩ := validated_body hdoc hg.marked
  obtain ⟨x, kids, hx, hk, _, _, her⟩ := Doc.good_body hg.src.toSound
  have hfx : forget doc.body = .elem x kids := by rw [f, ← hg.root]; exact hx
  have hsh : Doc.shaped (Doc.erase (forget doc.body)) = true := by rw [hfx, her]; exact hg.src.shaped
  refine ⟨⟨bodied_of_shaped hfx hk b1 hsh, hsh, s.trans hg.space, noDivRole_attOf _ (by rw [m]; exact exMarked_roles d)⟩, l.trans hg.lang, b2.trans hg.body⟩

theorem exMarked_flat (d : Seq.Doc) : Convert.flat (forget (exMarked d).root.body) = true := by
  simp only [exMarked, exRoot]
  split <;> rfl

def exMedia : Convert.Media := { base := .media, zero := 0, rd := Time.exactReader }

/-- `C109_played_is_active_partial` applies: what the encoded document shows of the two documents. -/
example : Seq.Reach Seq.exCfg none exState Doc.exHeld.reverse ∧ exState.docs = Doc.exHeld ∧
    (∀ d ∈ exState.docs, (exMarked d).Good d 12000000 (some "en".toList) (some "a0".toList, none) ∧ NoDivRole Att.kind (exMarked d).root.body ∧
      Convert.flat (forget (exMarked d).root.body) = true ∧ (exMarked d).src.base = exMedia.base) ∧
    ((extractSegment exState exMarked (some 2000000) (some 12000000)).map (encode exMedia)).map
        (fun r => r.toOption.map (fun out => [1999999, 2000000, 5000000, 8000000].map out.playedAt)) =
      some (some [[], [([.text "un".toList], ⟨some "fr".toList, none, ["a0".toList, "a1".toList], []⟩)],
        [([.text "zwei".toList], ⟨some "de".toList, none, ["a0".toList, "a2".toList], []⟩)], []]) := by
  have h : exState.docs = Doc.exHeld := by decide +kernel
  exact ⟨exState_reach, h, by
    rw [h]
    exact fun d hd => ⟨exGood d hd, exMarked_roles d, exMarked_flat d, rfl⟩, by decide +kernel⟩

open Verif.Node in
theorem exEvents_reach : ∀ k, ∃ log, RReach (extractMarked exMarked true) 1000000 5000000
    (runR (extractMarked exMarked true) 5000000 { lastEnd := 1000000 } (Convert.exEvents.take k)).1 log := by
  have hw : ∀ d ∈ Doc.exHeld, Seq.WellTimed (arrived 0 (exC d)) := by
    intro d hd
    simp only [Doc.exHeld, List.mem_cons, List.not_mem_nil, or_false] at hd
    rcases hd with rfl | rfl
    · exact ⟨by decide, by intro e he; simp [exC, arrived, Seq.mk] at he ⊢; omega⟩
    · exact ⟨by decide, by intro e he; simp [exC, arrived, Seq.mk] at he ⊢; omega⟩
  have h1 : RReach (extractMarked exMarked true) 1000000 5000000 _ _ :=
    .deliver 0 (exC (Seq.mk 1 1 1000000 (some 9000000))) .init (hw _ (by simp [Doc.exHeld])) (by simp) (by
      intro o ho
      have : (consume 0 ({ lastEnd := 1000000 } : RState).cons (some (exC (Seq.mk 1 1 1000000 (some 9000000))))).2 = .added .inserted := by
        decide
      rw [this] at ho
      injection ho with ho
      subst ho; rfl)
  have h2 := RReach.deliver 0 (exC (Seq.mk 2 2 5000000 (some 8000000))) h1 (hw _ (by simp [Doc.exHeld])) (by decide) (by
      intro o ho
      have : (consume 0 (reseq (extractMarked exMarked true) 5000000 ({ lastEnd := 1000000 } : RState)
          (.deliver 0 (some (exC (Seq.mk 1 1 1000000 (some 9000000)))))).1.cons
          (some (exC (Seq.mk 2 2 5000000 (some 8000000))))).2 = .added .inserted := by
        decide
      rw [this] at ho
      injection ho with ho
      subst ho; rfl)
  intro k
  match k with
  | 0 => exact ⟨_, .init⟩
  | 1 => exact ⟨_, h1⟩
  | 2 => exact ⟨_, h2⟩
  | 3 => exact ⟨_, h2.tick⟩
  | n + 4 =>
    have : Convert.exEvents.take (n + 4) = Convert.exEvents := List.take_of_length_le (by simp [Convert.exEvents])
    rw [this]
    exact ⟨_, h2.tick.tick⟩

open Verif.Node in
/-- `C109_whole_run_partial` applies: both documents arrive, then two segments of 5 s are emitted, encoded and played. -/
example : (∀ k, ∃ log, RReach (extractMarked exMarked true) 1000000 5000000
      (runR (extractMarked exMarked true) 5000000 { lastEnd := 1000000 } (Convert.exEvents.take k)).1 log) ∧
    (∀ k q, (runR (extractMarked exMarked true) 5000000 { lastEnd := 1000000 } (Convert.exEvents.take k)).1.cons.seq = some (some q) →
      ∀ d ∈ q.docs, (exMarked d).Good d 11000000 (some "en".toList) (some "a0".toList, none) ∧ NoDivRole Att.kind (exMarked d).root.body ∧
        Convert.flat (forget (exMarked d).root.body) = true ∧ (exMarked d).src.base = exMedia.base) ∧
    (runR (extractMarked exMarked true) 5000000 { lastEnd := 1000000 } Convert.exEvents).2.length = 2 ∧
    [999999, 1000000, 4999999, 5000000, 5999999, 6000000, 7999999, 8000000].map (fun u =>
        ((runR (extractMarked exMarked true) 5000000 { lastEnd := 1000000 } Convert.exEvents).2.map (fun g => playedSeg exMedia g u)).flatten) =
      let un := [([Doc.Item.text "un".toList], (⟨some "fr".toList, none, ["a0".toList, "a1".toList], []⟩ : Around))]
      let zwei := [([Doc.Item.text "zwei".toList], (⟨some "de".toList, none, ["a0".toList, "a2".toList], []⟩ : Around))]
      [[], un, un, zwei, zwei, zwei, zwei, []] := by
  refine ⟨exEvents_reach, ?_, by decide +kernel, by decide +kernel⟩
  have hall : ∀ k, ((runR (extractMarked exMarked true) 5000000 { lastEnd := 1000000 } (Convert.exEvents.take k)).1.cons.seq.getD none).all
      (fun q => q.docs.all (fun d => Doc.exHeld.contains d)) = true := by
    intro k
    match k with
    | 0 => decide +kernel
    | 1 => decide +kernel
    | 2 => decide +kernel
    | 3 => decide +kernel
    | n + 4 =>
      have : Convert.exEvents.take (n + 4) = Convert.exEvents := List.take_of_length_le (by simp [Convert.exEvents])
      rw [this]
      decide +kernel
  intro k q hq d hd
  have := hall k
  rw [hq] at this
  simp only [Option.getD_some, Option.all_some, List.all_eq_true] at this
  have hm : d ∈ Doc.exHeld := by simpa using this d hd
  exact ⟨(exGood d hm).mono (by omega), exMarked_roles d, exMarked_flat d, rfl⟩

/-! ### Where the claim fails -/

/-- A document with `xml:space` on its tt element. -/
def exSpaced : MDoc Att :=
  { lang := some "en".toList, space := some "preserve".toList, body :=
    .elem ({ kind := .body }, {}) [.elem ({ kind := .div }, {}) [
      .elem ({ kind := .p, beg := sec 1, fin := sec 9 }, {}) [.text "a  b".toList]]] }

/-- White space handling given on the tt element is lost in segments: a text to be kept as it is is no longer marked so. -/
theorem C109_false_outer_space : ∃ (d : MDoc Att) (doc : MDoc Lab) (seg : MDoc Att), Bodied Att.kind d.body ∧
    validate 0 d = .ok doc ∧ segmentDoc (exEnv 3000000 6000000) doc = .ok seg ∧
    doc.saidIn (exEnv 3000000 6000000).win = [(.text "a  b".toList, outer (some "en".toList) (some "preserve".toList))] ∧
    seg.said = [(.text "a  b".toList, outer (some "en".toList) none)] := by
  have h : ((validate 0 exSpaced).toOption.bind (fun doc => (segmentDoc (exEnv 3000000 6000000) doc).toOption.map (fun seg =>
      (doc.saidIn (exEnv 3000000 6000000).win, seg.said)))) =
      some ([(.text "a  b".toList, outer (some "en".toList) (some "preserve".toList))],
        [(.text "a  b".toList, outer (some "en".toList) none)]) := by decide +kernel
  obtain ⟨doc, hdoc⟩ := validate_exists 0 exSpaced
  rw [hdoc] at h
  simp only [Except.toOption, Option.bind_some] at h
  cases hseg : segmentDoc (exEnv 3000000 6000000) doc with
  | error e => rw [hseg] at h; simp at h
  | ok seg =>
  rw [hseg] at h
  simp only [Option.map_some, Option.some.injEq, Prod.mk.injEq] at h
  refine ⟨exSpaced, doc, seg, ⟨⟨_, _, rfl, rfl, ?_⟩, ?_⟩, hdoc, hseg, h.1, h.2⟩
  · intro k hk; simp only [List.mem_singleton] at hk; exact ⟨_, _, hk, rfl⟩
  · simp [exSpaced, Marked, MarkedL]

/-- A document with one untimed text. -/
def exText (lang text : String) (mk : Marks) : MDoc Att :=
  { lang := some lang.toList, space := none, body :=
    .elem ({ kind := .body }, mk) [.elem ({ kind := .div }, {}) [.elem ({ kind := .p }, {}) [.text text.toList]]] }

theorem exText_bodied (lang text : String) (mk : Marks) (h : mk.lang = none ∧ mk.space = none) : Bodied Att.kind (exText lang text mk).body :=
  ⟨⟨_, _, rfl, rfl, by intro k hk; simp only [List.mem_singleton] at hk; exact ⟨_, _, hk, rfl⟩⟩, by simp [exText, Marked, MarkedL, h]⟩

/-- Splicing a French document behind an English one marks the French text as English.  Sequences do not compare languages. -/
theorem C109_false_languages : ∃ (a b o : Part), Bodied Att.kind a.doc.body ∧ Bodied Att.kind b.doc.body ∧ splice [a, b] = some o ∧
    b.doc.said = [(.text "bonjour".toList, outer (some "fr".toList) none)] ∧
    o.doc.said = [(.text "hello".toList, outer (some "en".toList) none), (.text "bonjour".toList, outer (some "en".toList) none)] :=
  ⟨exPart (exText "en" "hello" {}), exPart (exText "fr" "bonjour" {}), _, exText_bodied _ _ _ ⟨rfl, rfl⟩, exText_bodied _ _ _ ⟨rfl, rfl⟩, rfl,
    by decide +kernel, by decide +kernel⟩

/-- Splicing attributes the texts of the second document to the agent of the first document's body. -/
theorem C109_false_body_agent : ∃ (a b o : Part), Bodied Att.kind a.doc.body ∧ Bodied Att.kind b.doc.body ∧ splice [a, b] = some o ∧
    a.doc.lang = b.doc.lang ∧ b.doc.said = [(.text "no".toList, ⟨some "en".toList, none, ["bob".toList], []⟩)] ∧
    o.doc.said = [(.text "yes".toList, ⟨some "en".toList, none, ["ann".toList], []⟩), (.text "no".toList, ⟨some "en".toList, none, ["ann".toList], []⟩)] :=
  ⟨exPart (exText "en" "yes" { agent := some "ann".toList }), exPart (exText "en" "no" { agent := some "bob".toList }), _,
    exText_bodied _ _ _ ⟨rfl, rfl⟩, exText_bodied _ _ _ ⟨rfl, rfl⟩, rfl, rfl, by decide +kernel, by decide +kernel⟩

/-- The encoder drops the role of a div, although EBU-TT-D has it (ebutt_d.xsd:142-174). -/
theorem C109_false_div_role (m : Convert.Media) : ∃ (d : MDoc Att) (o : DDoc), Bodied Att.kind d.body ∧ convert m d = .ok o ∧
    d.said = [(.text "la la".toList, ⟨some "en".toList, none, [], ["music".toList]⟩)] ∧
    o.said = [(.text "la la".toList, ⟨some "en".toList, none, [], []⟩)] := by
  refine ⟨{ lang := some "en".toList, space := none, body := .elem ({ kind := .body }, {}) [
      .elem ({ kind := .div }, { role := some "music".toList }) [.elem ({ kind := .p }, {}) [.text "la la".toList]]] }, _, ⟨⟨_, _, rfl, rfl, ?_⟩, ?_⟩,
    rfl, by decide +kernel, by rfl⟩
  · intro k hk; simp only [List.mem_singleton] at hk; exact ⟨_, _, hk, rfl⟩
  · simp [Marked, MarkedL]

end Verif.Mark
