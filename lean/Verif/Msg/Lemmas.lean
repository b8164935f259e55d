import Verif.Msg.Model
import Verif.Xml.Props

/-!
# Lemmas about live messages
-/
namespace Verif.Msg

open Verif.Xml (Text X blank glue pretty prettyOnto Clear dropBlank good goods valOk run run_append run_cons run_nil)

/-! ### Elements among white space -/

theorem drop_glue {l : List X} (hl : Clear l) {a : Text} (ha : a.all blank = true) :
    dropBlank (glue l a).reverse = dropBlank l.reverse ∧ Clear (glue l a) := by
  refine ⟨?_, (Xml.textss_glue hl ha).2⟩
  unfold glue
  by_cases h0 : a = []
  · rw [if_pos h0]
  · rw [if_neg h0]
    cases l with
    | nil => simp [dropBlank, X.isBlank, ha]
    | cons x l =>
      cases x with
      | text b =>
        have hb := hl b l rfl
        simp [dropBlank, X.isBlank, ha, hb]
      | elem t as k => simp [dropBlank, X.isBlank, ha]

theorem drop_prettyOnto (ind : Text) (hi : ∀ c ∈ ind, c = ' ' ∨ c = '\n') : ∀ (ks l : List X), Clear l → ks.all X.isElem = true →
    dropBlank (prettyOnto ind l ks).reverse = dropBlank l.reverse ++ ks.map (pretty ind) ∧ Clear (prettyOnto ind l ks)
  | [], l, hl, _ => ⟨by simp [prettyOnto], by rw [prettyOnto]; exact hl⟩
  | .text d :: ks, l, hl, h => by simp [X.isElem] at h
  | .elem t as k :: ks, l, hl, h => by
    rw [List.all_cons, Bool.and_eq_true] at h
    have h1 := drop_glue hl (Xml.all_blank hi)
    have hc : Clear (pretty ind (.elem t as k) :: glue l ind) := by
      intro d l' he
      rw [pretty] at he
      simp at he
    have h2 := drop_glue hc (a := ['\n']) (by decide)
    have h3 := drop_prettyOnto ind hi ks _ h2.2 h.2
    refine ⟨?_, by rw [prettyOnto]; exact h3.2⟩
    rw [prettyOnto, h3.1, h2.1, List.reverse_cons, Xml.dropBlank_append, h1.1]
    have h5 : dropBlank [pretty ind (.elem t as k)] = [pretty ind (.elem t as k)] := by
      rw [pretty]; simp [dropBlank, X.isBlank]
    rw [h5]
    simp

/-- What is read of an element that contains elements only, without white space. -/
theorem pretty_elems (ind : Text) (hi : ∀ c ∈ ind, c = ' ' ∨ c = '\n') (t : Text) (as) (ks : List X) (h0 : ks ≠ [])
    (h : ks.all X.isElem = true) :
    ∃ ks', pretty ind (.elem t as ks) = .elem t as ks' ∧ dropBlank ks' = ks.map (pretty (ind ++ [' ', ' '])) := by
  refine ⟨_, by rw [pretty], ?_⟩
  have he : ¬ ks.isEmpty = true := by rw [List.isEmpty_iff]; exact h0
  rw [if_neg he]
  have ha : Xml.alone ks = none := by
    cases ks with
    | nil => rfl
    | cons x ks =>
      cases x with
      | text d => simp [X.isElem] at h
      | elem t as k => rfl
  rw [ha]
  have hn : Clear [] := by intro d l' he; simp at he
  have h1 := drop_glue hn (a := ['\n']) (by decide)
  have h2 := drop_prettyOnto _ (Xml.indent_blank hi) ks (glue [] ['\n']) h1.2 h
  have h3 := drop_glue h2.2 (Xml.all_blank hi)
  simp only
  rw [h3.1, h2.1, h1.1]
  simp [dropBlank]

theorem pretty_leaf (ind t d : Text) : pretty ind (leaf t d) = .elem t [] (if d = [] then [] else [.text d]) := by
  rw [leaf, pretty]
  by_cases h : d = [] <;> simp [Xml.alone, glue, h]

theorem simple_leaf (d : Text) : simple (if d = [] then [] else [.text d]) = some d := by
  by_cases h : d = []
  · rw [if_pos h, h]; rfl
  · rw [if_neg h]; simp [simple]

/-! ### The header -/

/-- The sender that is written. -/
def sentSender (m : Message) : Option Text := m.sender.filter (fun s => !s.isEmpty)

theorem headerKids_eq (m : Message) :
    headerKids m = ((sentSender m).map (leaf senderTag)).toList ++ ((m.recipients.getD []).map (leaf recipientTag) ++ [leaf typeTag requestType]) := by
  unfold headerKids sentSender
  cases m.sender with
  | none => simp
  | some s =>
    cases s with
    | nil => simp
    | cons c s => simp [Option.filter]

theorem readTail_pretty (ncName : Text → Bool) (hnc : ncName requestType = true) (ind : Text) : ∀ rs : List Text,
    readTail ncName ((rs.map (leaf recipientTag) ++ [leaf typeTag requestType]).map (pretty ind)) = some (rs, requestType)
  | [] => by
    have h1 : ¬ typeTag = recipientTag := by decide +kernel
    have h2 : strip requestType = requestType := by decide +kernel
    have h3 : ¬ requestType = [] := by decide +kernel
    simp only [List.map_nil, List.nil_append, List.map_cons, pretty_leaf]
    rw [if_neg h3, readTail]
    simp [h1, simple, h2, hnc]
  | r :: rs => by
    have ih := readTail_pretty ncName hnc ind rs
    have e : ((r :: rs).map (leaf recipientTag) ++ [leaf typeTag requestType]).map (pretty ind) =
        .elem recipientTag [] (if r = [] then [] else [.text r]) :: (rs.map (leaf recipientTag) ++ [leaf typeTag requestType]).map (pretty ind) := by
      simp [pretty_leaf]
    rw [e, readTail, ih, simple_leaf]
    simp

theorem readHeader_pretty (ncName : Text → Bool) (hnc : ncName requestType = true) (ind : Text) (m : Message) :
    readHeader ncName ((headerKids m).map (pretty ind)) = some ⟨sentSender m, m.recipients.getD [], requestType⟩ := by
  have ht := readTail_pretty ncName hnc ind (m.recipients.getD [])
  rw [headerKids_eq]
  cases hs : sentSender m with
  | some s =>
    have e : ((some s).map (leaf senderTag)).toList ++ ((m.recipients.getD []).map (leaf recipientTag) ++ [leaf typeTag requestType]) =
        leaf senderTag s :: ((m.recipients.getD []).map (leaf recipientTag) ++ [leaf typeTag requestType]) := rfl
    rw [e, List.map_cons, pretty_leaf, readHeader, ht, simple_leaf]
    simp
  | none =>
    have e : ((none : Option Text).map (leaf senderTag)).toList ++ ((m.recipients.getD []).map (leaf recipientTag) ++ [leaf typeTag requestType]) =
        (m.recipients.getD []).map (leaf recipientTag) ++ [leaf typeTag requestType] := rfl
    rw [e]
    have h1 : ¬ recipientTag = senderTag := by decide +kernel
    have h2 : ¬ typeTag = senderTag := by decide +kernel
    cases hr : m.recipients.getD [] with
    | nil =>
      rw [hr] at ht
      simp only [List.map_nil, List.nil_append, List.map_cons, pretty_leaf] at ht ⊢
      rw [readHeader, if_neg (fun h => h2 h.1), ht]
      rfl
    | cons r rs =>
      rw [hr] at ht
      simp only [List.map_cons, List.cons_append, pretty_leaf] at ht ⊢
      rw [readHeader, if_neg (fun h => h1 h.1), ht]
      rfl

theorem headerKids_elems (m : Message) : headerKids m ≠ [] ∧ (headerKids m).all X.isElem = true := by
  rw [headerKids_eq]
  refine ⟨by simp, ?_⟩
  rw [List.all_eq_true]
  intro x hx
  simp only [List.mem_append, List.mem_map, Option.mem_toList, Option.map_eq_some_iff, List.mem_singleton] at hx
  rcases hx with ⟨s, _, rfl⟩ | ⟨s, _, rfl⟩ | rfl <;> rfl

/-! ### The message -/

/-- The content of the payload as it is read. -/
def readPayload : Payload → List X
  | .text d => if d = [] then [] else [.text d]
  | .node (.text d) => if d = [] then [] else [.text d]
  | .node (.elem t as ks) => [.text "\n    ".toList, pretty "    ".toList (.elem t as ks), .text "\n  ".toList]

theorem pretty_payload (p : Payload) : pretty [' ', ' '] (.elem payloadTag [] (payloadKids p)) = .elem payloadTag [] (readPayload p) := by
  cases p with
  | text d =>
    rw [pretty]
    by_cases h : d = [] <;> simp [payloadKids, readPayload, Xml.alone, glue, h]
  | node x =>
    cases x with
    | text d =>
      rw [pretty]
      by_cases h : d = [] <;> simp [payloadKids, readPayload, Xml.alone, glue, h]
    | elem t as ks =>
      rw [pretty]
      have e : ("    ".toList : Text) = [' ', ' ', ' ', ' '] := by decide
      have e2 : ("\n    ".toList : Text) = ['\n', ' ', ' ', ' ', ' '] := by decide
      have e3 : ("\n  ".toList : Text) = ['\n', ' ', ' '] := by decide
      simp only [payloadKids, readPayload, e, e2, e3]
      simp [Xml.alone, prettyOnto, glue]
      rw [pretty]
      rfl

theorem readAttrs_sid (q : Text) (h : q ≠ []) : readAttrs ((sidName, q) :: nsAttrs) = some q := by
  have h1 : ((sidName, q) :: nsAttrs).all (fun a => a.1 = sidName || "xmlns".toList.isPrefixOf a.1) = true := by
    rw [List.all_cons]
    have : nsAttrs.all (fun a => a.1 = sidName || "xmlns".toList.isPrefixOf a.1) = true := by decide +kernel
    rw [this]
    simp
  unfold readAttrs
  rw [if_pos h1]
  simp [h]

theorem readTree_pretty (ncName : Text → Bool) (hnc : ncName requestType = true) (m : Message) (h : m.sid ≠ []) :
    ∃ ks, pretty [] (tree m) = .elem messageTag ((sidName, m.sid) :: nsAttrs) ks ∧
      readTree ncName (.elem messageTag ((sidName, m.sid) :: nsAttrs) ks) =
        some ⟨m.sid, ⟨sentSender m, m.recipients.getD [], requestType⟩, readPayload m.payload⟩ := by
  obtain ⟨ks, h1, h2⟩ := pretty_elems [] (by simp) messageTag ((sidName, m.sid) :: nsAttrs)
    [.elem headerTag [] (headerKids m), .elem payloadTag [] (payloadKids m.payload)] (by simp) rfl
  refine ⟨ks, h1, ?_⟩
  obtain ⟨hk, h3, h4⟩ := pretty_elems [' ', ' '] (by simp) headerTag [] (headerKids m) (headerKids_elems m).1 (headerKids_elems m).2
  simp only [List.map_cons, List.map_nil, List.nil_append] at h2
  rw [h3, pretty_payload] at h2
  rw [readTree, readAttrs_sid _ h, h2]
  simp only [List.isEmpty_nil, and_self, if_true]
  rw [h4, readHeader_pretty ncName hnc]
  rfl

/-! ### White space in the sequence identifier -/

/-- White space in an attribute is read as spaces. -/
def spaced (q : Text) : Text := q.map (fun c => if blank c = true then ' ' else c)

theorem spaced_ok (q : Text) : valOk (spaced q) = true := by
  rw [valOk, List.all_eq_true]
  intro c hc
  obtain ⟨d, _, rfl⟩ := List.mem_map.1 hc
  by_cases hd : blank d = true
  · rw [if_pos hd]; rfl
  · rw [if_neg hd]; simp [hd]

theorem spaced_eq (q : Text) : spaced q = q ↔ valOk q = true := by
  induction q with
  | nil => exact ⟨fun _ => rfl, fun _ => rfl⟩
  | cons c q ih =>
    have hv : valOk (c :: q) = ((c == ' ' || !(blank c)) && valOk q) := rfl
    rw [spaced, List.map_cons, ← spaced, List.cons.injEq, ih, hv, Bool.and_eq_true]
    apply and_congr_left
    intro _
    by_cases hc : blank c = true
    · rw [if_pos hc]
      simp only [hc, Bool.not_true, Bool.or_false, beq_iff_eq]
      exact ⟨Eq.symm, Eq.symm⟩
    · rw [if_neg hc]
      simp [hc]

theorem run_spaced (l up) (n : Text) (as) (a : Text) : ∀ (w v : Text),
    run ⟨l, up, .val n as a v⟩ (Xml.escape w) = ⟨l, up, .val n as a (v ++ spaced w)⟩
  | [], v => by simp [Xml.escape, run_nil, spaced]
  | c :: w, v => by
    have ih := run_spaced l up n as a w (v ++ [if blank c = true then ' ' else c])
    have hc : run ⟨l, up, .val n as a v⟩ (Xml.escChar c) = ⟨l, up, .val n as a (v ++ [if blank c = true then ' ' else c])⟩ := by
      by_cases hb : blank c = true
      · have h1 : c ≠ '&' := fun he => by rw [he] at hb; exact absurd hb (by decide)
        have h2 : c ≠ '<' := fun he => by rw [he] at hb; exact absurd hb (by decide)
        have h3 : c ≠ '"' := fun he => by rw [he] at hb; exact absurd hb (by decide)
        have h4 : c ≠ '>' := fun he => by rw [he] at hb; exact absurd hb (by decide)
        rw [Xml.escChar, if_neg h1, if_neg h2, if_neg h3, if_neg h4, run_cons, run_nil]
        simp [Xml.step, h1, h3]
      · rw [if_neg hb]
        exact Xml.run_valChar l up n as a v c (by simp [hb])
    rw [Xml.escape, List.flatMap_cons, run_append, hc, ← Xml.escape, ih]
    simp [spaced]

/-- The text before the value of the first attribute. -/
def before (t n : Text) : Text := "<?xml version=\"1.0\" ?>\n".toList ++ ('<' :: t ++ ' ' :: n ++ ['=', '"'])

theorem writeDoc_form (t n q : Text) (as) (a b : X) :
    Xml.writeDoc (.elem t ((n, q) :: as) [a, b]) = before t n ++ (Xml.escape q ++ ('"' :: (as.flatMap Xml.writeAttr ++
      '>' :: '\n' :: Xml.writeKids [' ', ' '] [a, b] ++ '<' :: '/' :: t ++ ['>', '\n']))) := by
  have ha : Xml.alone [a, b] = none := by cases a <;> rfl
  unfold Xml.writeDoc before
  rw [Xml.writeNode, ha]
  generalize "<?xml version=\"1.0\" ?>\n".toList = p
  simp only [List.isEmpty_cons, Bool.false_eq_true, if_false, List.flatMap_cons, Xml.writeAttr, List.nil_append, List.append_assoc,
    List.cons_append]

theorem run_before : run ⟨[], [], .text⟩ (before messageTag sidName) = ⟨[.text ['\n']], [], .val messageTag [] sidName []⟩ := by rfl

theorem run_value (t n q : Text) (l) (hp : run ⟨[], [], .text⟩ (before t n) = ⟨l, [], .val t [] n []⟩) (R : Text) :
    run ⟨[], [], .text⟩ (before t n ++ (Xml.escape q ++ R)) = run ⟨[], [], .text⟩ (before t n ++ (Xml.escape (spaced q) ++ R)) := by
  rw [run_append, run_append _ (before t n) (Xml.escape (spaced q) ++ R), hp, run_append, run_append _ (Xml.escape (spaced q)),
    run_spaced, Xml.run_val _ _ _ _ _ _ _ (spaced_ok _)]

theorem readDoc_spaced (m : Message) : Xml.readDoc (Xml.writeDoc (tree m)) = Xml.readDoc (Xml.writeDoc (tree { m with sid := spaced m.sid })) := by
  have hp := run_before
  have e : tree { m with sid := spaced m.sid } = .elem messageTag ((sidName, spaced m.sid) :: nsAttrs)
    [.elem headerTag [] (headerKids m), .elem payloadTag [] (payloadKids m.payload)] := rfl
  rw [e, tree]
  generalize messageTag = t at hp ⊢
  generalize sidName = n at hp ⊢
  rw [writeDoc_form, writeDoc_form]
  unfold Xml.readDoc
  rw [run_value t n m.sid _ hp]

end Verif.Msg
