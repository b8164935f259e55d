import Verif.Msg.Lemmas

/-!
# C96: live messages arrive as they were sent
-/
namespace Verif.Msg

open Verif.Xml (Text X blank valOk good goods)

/-! ### Specification -/

/-- A message of text without carriage returns (which no reader of XML sees). -/
structure Clean (m : Message) (d : Text) : Prop where
  payload : m.payload = .text d
  text : '\r' ∉ d
  sender : ∀ s, m.sender = some s → '\r' ∉ s
  recipients : ∀ rs, m.recipients = some rs → ∀ r ∈ rs, '\r' ∉ r

/-- The message as its receiver has it: an empty sender is no sender, no recipients are an empty list of recipients, the
availability time is lost. -/
def arrived (m : Message) : Message where
  sid := m.sid
  sender := match m.sender with | some [] => none | s => s
  recipients := match m.recipients with | none => some [] | rs => rs
  payload := m.payload
  avail := none

/-! ### Reading what was written -/

theorem no_r {d : Text} (h : '\r' ∉ d) : d.all (fun c => c != '\r') = true := by
  rw [List.all_eq_true]
  intro c hc
  simp only [bne_iff_ne, ne_eq]
  intro he
  exact h (he ▸ hc)

theorem good_leaf (t d : Text) (ht : Xml.nameOk t = true) (h : '\r' ∉ d) : good (leaf t d) = true := by
  simp [leaf, good, goods, ht, no_r h]

theorem goods_of {l : List X} (h : ∀ x ∈ l, good x = true) : goods l = true := by
  induction l with
  | nil => rfl
  | cons x l ih => rw [goods, h x (by simp), ih (fun y hy => h y (List.mem_cons_of_mem _ hy))]; rfl

theorem good_header (m : Message) (hs : ∀ s, m.sender = some s → '\r' ∉ s) (hr : ∀ rs, m.recipients = some rs → ∀ r ∈ rs, '\r' ∉ r) :
    goods (headerKids m) = true := by
  apply goods_of
  intro x hx
  rw [headerKids_eq] at hx
  simp only [List.mem_append, List.mem_map, Option.mem_toList, Option.map_eq_some_iff, List.mem_singleton] at hx
  rcases hx with ⟨s, h, rfl⟩ | ⟨r, h, rfl⟩ | rfl
  · refine good_leaf _ _ (by decide +kernel) (hs s ?_)
    unfold sentSender at h
    cases h1 : m.sender with
    | none => rw [h1] at h; cases h
    | some s' =>
      rw [h1] at h
      rw [Option.filter_some] at h
      split at h
      · exact h
      · cases h
  · refine good_leaf _ _ (by decide +kernel) ?_
    cases h1 : m.recipients with
    | none => rw [h1] at h; cases h
    | some rs => rw [h1] at h; exact hr rs h1 r h
  · exact good_leaf _ _ (by decide +kernel) (by decide +kernel)

theorem good_tree (m : Message) (hs : ∀ s, m.sender = some s → '\r' ∉ s) (hr : ∀ rs, m.recipients = some rs → ∀ r ∈ rs, '\r' ∉ r)
    (hp : goods (payloadKids m.payload) = true) (hq : valOk m.sid = true) : good (tree m) = true := by
  have h1 : Xml.nameOk messageTag = true := by decide +kernel
  have h2 : Xml.nameOk headerTag = true := by decide +kernel
  have h3 : Xml.nameOk payloadTag = true := by decide +kernel
  have h4 : nsAttrs.all Xml.attrOk = true := by decide +kernel
  have h5 : Xml.nameOk sidName = true := by decide +kernel
  have h6 := good_header m hs hr
  rw [tree]
  simp only [good, goods, List.all_cons, h1, h2, h3, h4, h6, hp, Xml.attrOk, h5, hq, List.all_nil, Bool.and_true]

/-- What the reader makes of a written message, whatever its sequence identifier. -/
theorem parse_written (ncName : Text → Bool) (hnc : ncName requestType = true) (m : Message)
    (hs : ∀ s, m.sender = some s → '\r' ∉ s) (hr : ∀ rs, m.recipients = some rs → ∀ r ∈ rs, '\r' ∉ r)
    (hp : goods (payloadKids m.payload) = true) (h0 : m.sid ≠ []) :
    parse ncName (Xml.writeDoc (tree m)) =
      .ok (some ⟨spaced m.sid, ⟨sentSender m, m.recipients.getD [], requestType⟩, readPayload m.payload⟩) := by
  have h1 : spaced m.sid ≠ [] := by
    intro h
    exact h0 (List.map_eq_nil_iff.1 h)
  obtain ⟨ks, h2, h3⟩ := readTree_pretty ncName hnc { m with sid := spaced m.sid } h1
  have h4 := good_tree { m with sid := spaced m.sid } hs hr hp (spaced_ok _)
  unfold parse
  rw [readDoc_spaced, tree] at *
  rw [Xml.readDoc_writeDoc _ _ _ h4, h2]
  simp only [if_true, h3]
  rfl

theorem arrived_eq (m : Message) (d : Text) (h : m.payload = .text d) :
    arrived m = ⟨m.sid, sentSender m, some (m.recipients.getD []), .text d, none⟩ := by
  unfold arrived sentSender
  rw [h]
  congr 1
  · cases m.sender with
    | none => rfl
    | some s => cases s <;> simp [Option.filter]
  · cases m.recipients <;> rfl

/-- **C96**  What becomes of a message of text that is written, carried under its sequence identifier and read: it arrives as it was
sent, unless its identifier or its payload is empty, or there are tabs or line breaks in its identifier. -/
theorem C96_carried (ncName : Text → Bool) (hnc : ncName requestType = true) (m : Message) (d : Text) (h : Clean m d) :
    Leg.carry.pass ncName m =
      if m.sid = [] then .error .refused
      else if d = [] then .error .noPayload
      else if valOk m.sid = true then .ok (some (arrived m))
      else .error .otherSequence := by
  have ha := arrived_eq m d h.payload
  rw [Leg.pass, write]
  by_cases h0 : m.sid = []
  · rw [if_pos h0, if_pos h0]
  rw [if_neg h0, if_neg h0]
  have hp : goods (payloadKids m.payload) = true := by
    rw [h.payload]; simp [payloadKids, goods, good, no_r h.text]
  simp only [adapt]
  rw [parse_written ncName hnc m h.sender h.recipients hp h0, h.payload]
  by_cases hd : d = []
  · rw [if_pos hd]; simp [readPayload, ofBinding, hd]
  rw [if_neg hd]
  simp only [readPayload, if_neg hd, ofBinding]
  by_cases hv : valOk m.sid = true
  · rw [if_pos hv, (spaced_eq _).2 hv, if_pos rfl, ha]
  · rw [if_neg hv, if_neg (fun he => hv ((spaced_eq _).1 he.symm))]

/-- **C96**, exactly: the receiver gets the message as it was sent if and only if it has an identifier without tabs and line breaks
and something in its payload; in no other case does it get a message at all. -/
theorem C96_arrives_iff (ncName : Text → Bool) (hnc : ncName requestType = true) (m : Message) (d : Text) (h : Clean m d) :
    ((∃ m', Leg.carry.pass ncName m = .ok (some m')) ↔ m.sid ≠ [] ∧ d ≠ [] ∧ valOk m.sid = true) ∧
    (∀ m', Leg.carry.pass ncName m = .ok (some m') → m' = arrived m) := by
  rw [C96_carried ncName hnc m d h]
  by_cases h0 : m.sid = []
  · simp [h0]
  by_cases hd : d = []
  · simp [h0, hd]
  by_cases hv : valOk m.sid = true
  · simp only [h0, hd, hv, if_false, if_true, ne_eq, not_false_eq_true, and_self, iff_true]
    exact ⟨⟨_, rfl⟩, fun m' he => by injection he with he; injection he with he; exact he.symm⟩
  · simp [h0, hd, hv]

/-- **C96**, `create_from_xml`: a message that is written is read back as it was. -/
theorem C96_read_back (ncName : Text → Bool) (hnc : ncName requestType = true) (m : Message) (d : Text) (h : Clean m d) (hd : d ≠ [])
    (h0 : m.sid ≠ []) (hv : valOk m.sid = true) :
    ∃ s, write m = .ok s ∧ createFromXml ncName s = .ok (some (arrived m)) := by
  refine ⟨Xml.writeDoc (tree m), by rw [write, if_neg h0], ?_⟩
  have hp : goods (payloadKids m.payload) = true := by
    rw [h.payload]; simp [payloadKids, goods, good, no_r h.text]
  rw [createFromXml, parse_written ncName hnc m h.sender h.recipients hp h0, arrived_eq m d h.payload, h.payload]
  simp only [readPayload, if_neg hd, ofBinding, if_true, (spaced_eq _).2 hv]
  rfl

/-! ### Journeys -/

/-- Specification: under which sequence identifier a message ends its journey: that of the last handover node. -/
def lastSid : List Leg → Text → Text
  | [], q => q
  | .handover q :: ls, _ => lastSid ls q
  | _ :: ls, q => lastSid ls q

def Leg.isCarry : Leg → Bool
  | .carry => true
  | _ => false

def Leg.isIgnore : Leg → Bool
  | .ignore => true
  | _ => false

/-- A proper sequence identifier. -/
def goodSid (q : Text) : Prop := q ≠ [] ∧ valOk q = true

theorem arrived_clean {m : Message} {d : Text} (h : Clean m d) : Clean (arrived m) d := by
  refine ⟨h.payload, h.text, ?_, ?_⟩
  · intro s hs
    have : m.sender = some s := by
      cases h1 : m.sender with
      | none => simp [arrived, h1] at hs
      | some s' => cases s' <;> simp_all [arrived]
    exact h.sender s this
  · intro rs hr r hr'
    cases h1 : m.recipients with
    | none => simp only [arrived, h1, Option.some.injEq] at hr; rw [← hr] at hr'; cases hr'
    | some rs' => simp only [arrived, h1, Option.some.injEq] at hr; exact h.recipients rs' h1 r (hr ▸ hr')

theorem arrived_twice (m : Message) (q : Text) : arrived { arrived m with sid := q } = { arrived m with sid := q } := by
  unfold arrived
  congr 1
  · cases m.sender with
    | none => rfl
    | some s => cases s <;> rfl
  · cases m.recipients <;> rfl

theorem arrived_sid (m : Message) (q : Text) : arrived { m with sid := q } = { arrived m with sid := q } := rfl

/-- **C96**, journeys: through any number of handover, delay and distributing nodes and carriages, in any order, a message of text
arrives with its payload, its sender and its recipients, under the identifier of the last handover node; nothing is lost, but for the
availability time where it is carried as text. -/
theorem C96_travels_partial (ncName : Text → Bool) (hnc : ncName requestType = true) : ∀ (legs : List Leg) (m : Message) (d : Text),
    Clean m d → d ≠ [] → goodSid m.sid → (∀ q, .handover q ∈ legs → goodSid q) → (∀ l ∈ legs, l.isIgnore = false) →
    travel ncName legs m = .ok (some { (if legs.any Leg.isCarry = true then arrived m else m) with sid := lastSid legs m.sid })
  | [], m, d, h, hd, hm, hl, hi => rfl
  | .handover q :: ls, m, d, h, hd, hm, hl, hi => by
    have ih := C96_travels_partial ncName hnc ls { m with sid := q } d ⟨h.payload, h.text, h.sender, h.recipients⟩ hd
      (hl q (by simp)) (fun q' hq => hl q' (by simp [hq])) (fun l hl' => hi l (List.mem_cons_of_mem _ hl'))
    rw [travel]
    simp only [Leg.pass]
    rw [ih]
    simp only [List.any_cons, Leg.isCarry, Bool.false_or, lastSid]
    by_cases hc : ls.any Leg.isCarry = true
    · simp [hc, arrived_sid]
    · simp [hc]
  | .retime :: ls, m, d, h, hd, hm, hl, hi => by
    have ih := C96_travels_partial ncName hnc ls m d h hd hm (fun q' hq => hl q' (by simp [hq]))
      (fun l hl' => hi l (List.mem_cons_of_mem _ hl'))
    rw [travel]
    simp only [Leg.pass]
    rw [ih]
    simp only [List.any_cons, Leg.isCarry, Bool.false_or, lastSid]
  | .carry :: ls, m, d, h, hd, hm, hl, hi => by
    have ih := C96_travels_partial ncName hnc ls (arrived m) d (arrived_clean h) hd hm (fun q' hq => hl q' (by simp [hq]))
      (fun l hl' => hi l (List.mem_cons_of_mem _ hl'))
    rw [travel, C96_carried ncName hnc m d h, if_neg hm.1, if_neg hd, if_pos hm.2]
    simp only
    rw [ih]
    simp only [List.any_cons, Leg.isCarry, Bool.true_or, if_true, lastSid]
    have e := arrived_twice m m.sid
    have e' : ({ arrived m with sid := m.sid } : Message) = arrived m := rfl
    rw [e'] at e
    have e2 : (if ls.any Leg.isCarry = true then arrived (arrived m) else arrived m) = arrived m := by rw [e]; exact ite_self _
    rw [e2]
    rfl
  | .ignore :: ls, m, d, h, hd, hm, hl, hi => by
    have := hi .ignore (by simp)
    simp [Leg.isIgnore] at this

/-- The property fails at deduplicators, resequencers and encoders: whatever the journey, no message arrives behind one. -/
theorem C96_false_ignored (ncName : Text → Bool) : ∀ (legs : List Leg) (m : Message), .ignore ∈ legs →
    ∀ m', travel ncName legs m ≠ .ok (some m')
  | [], m, h, m' => by cases h
  | l :: ls, m, h, m' => by
    intro ht
    rw [travel] at ht
    cases hp : l.pass ncName m with
    | error e => rw [hp] at ht; cases ht
    | ok r =>
      cases r with
      | none => rw [hp] at ht; cases ht
      | some m1 =>
        rw [hp] at ht
        rcases List.mem_cons.1 h with h | h
        · rw [← h] at hp; cases hp
        · exact C96_false_ignored ncName ls m1 h m' ht

/-- It fails for a payload that is an element: the receiver gets the white space in front of the element instead, whatever it is. -/
theorem C96_false_element (ncName : Text → Bool) (hnc : ncName requestType = true) (m : Message) (t : Text) (as ks)
    (hp : m.payload = .node (.elem t as ks)) (hg : good (.elem t as ks) = true)
    (hs : ∀ s, m.sender = some s → '\r' ∉ s) (hr : ∀ rs, m.recipients = some rs → ∀ r ∈ rs, '\r' ∉ r) (hq : goodSid m.sid) :
    ∃ m', Leg.carry.pass ncName m = .ok (some m') ∧ m'.payload = .text "\n    ".toList := by
  have h1 : goods (payloadKids m.payload) = true := by rw [hp]; simp [payloadKids, goods, hg]
  rw [Leg.pass, write, if_neg hq.1]
  simp only [adapt]
  rw [parse_written ncName hnc m hs hr h1 hq.1, hp]
  simp only [readPayload, ofBinding, (spaced_eq _).2 hq.2, if_true]
  exact ⟨_, rfl, rfl⟩

/-- `create_from_xml` of the base class makes nothing of a document. -/
theorem C96_false_document (ncName : Text → Bool) (s t : Text) (as ks) (h : Xml.readDoc s = some (.elem t as ks)) (ht : t ≠ messageTag) :
    createFromXml ncName s = .ok none := by
  unfold createFromXml parse
  rw [h]
  simp [ht]

/-! ### Examples -/

/-- An `NCName` for the examples: letters. -/
def letters (d : Text) : Bool := !d.isEmpty && d.all Char.isAlpha

def exMessage : Message := ⟨"Seq1".toList, some "Anna & Bo".toList, some ["a".toList, "".toList], .text "Please hand over!".toList, some 7⟩

theorem exClean : Clean exMessage "Please hand over!".toList :=
  ⟨rfl, by decide +kernel, by intro s hs; injection hs with hs; rw [← hs]; decide +kernel,
   by intro rs hr; injection hr with hr; rw [← hr]; decide +kernel⟩

/-- A message that meets the conditions, on a journey of five legs. -/
example : letters requestType = true ∧ goodSid exMessage.sid ∧
    ∃ m', travel letters [.retime, .carry, .handover "Out".toList, .carry, .retime] exMessage = .ok (some m') ∧
      m'.sid = "Out".toList ∧ m'.sender = some "Anna & Bo".toList ∧ m'.recipients = some ["a".toList, "".toList] ∧
      m'.payload = .text "Please hand over!".toList ∧ m'.avail = none := by
  have hnc : letters requestType = true := by decide +kernel
  have hq : goodSid exMessage.sid := ⟨by decide, by decide +kernel⟩
  refine ⟨hnc, hq, _, C96_travels_partial letters hnc _ exMessage _ exClean (by decide) hq ?_ ?_, rfl, rfl, rfl, rfl, rfl⟩
  · intro q hq
    simp only [List.mem_cons, Leg.handover.injEq, reduceCtorEq, false_or, List.not_mem_nil, or_false] at hq
    rw [hq]; exact ⟨by decide, by decide +kernel⟩
  · intro l hl
    simp only [List.mem_cons, List.not_mem_nil, or_false] at hl
    rcases hl with rfl | rfl | rfl | rfl | rfl <;> rfl

/-- The payload of a result. -/
def payloadIs (r : Except Err (Option Message)) (d : Text) : Bool :=
  match r with
  | .ok (some m) => (match m.payload with | .text e => e = d | .node _ => false)
  | _ => false

def errIs (r : Except Err (Option Message)) (e : Err) : Bool :=
  match r with
  | .error e' => e' = e
  | _ => false

/-- A message as a client might send it. -/
def foreign (type payload : String) : Text :=
  ("<ebuttlm:message ebuttp:sequenceIdentifier=\"S\"><ebuttlm:header><ebuttlm:type>" ++ type ++
   "</ebuttlm:type></ebuttlm:header><ebuttlm:payload>" ++ payload ++ "</ebuttlm:payload></ebuttlm:message>").toList

/-- Of a payload with elements in it only the text before the first element is read. -/
theorem C96_false_rest : payloadIs (createFromXml letters (foreign "authorsGroupControlRequest" "Please <b>hand</b> over")) "Please ".toList = true := by
  decide +kernel

/-- A message that is read by the adapter, written again and read by `create_from_xml`. -/
def again (s : Text) : Except Err (Option Message) :=
  match adapt letters none s with
  | .ok (some m) => (match write m with | .ok s' => createFromXml letters s' | .error e => .error e)
  | r => r

/-- The adapter takes a message of any type for an authors group control request, and so does whoever it is passed on to; in itself
`create_from_xml` refuses it. -/
theorem C96_false_type :
    payloadIs (adapt letters (some "S".toList) (foreign "restart" "now")) "now".toList = true ∧
    errIs (createFromXml letters (foreign "restart" "now")) .otherType = true ∧
    payloadIs (again (foreign "restart" "now")) "now".toList = true := by
  decide +kernel

end Verif.Msg
