import Verif.Ui.DocLemmas
import Verif.Adapt.WireProps
import Std.Data.String.ToNat

/-!
# What is typed is what is read (C84)
-/
namespace Verif.Ui

open Verif.Xml (Text X)

/-- **C84**, the document: for every form without markup characters and every text of lines without markup characters, what the page sends is
a well-formed document whose attributes are what is in the form and whose only span has these lines with line breaks between them. -/
theorem C84_document_partial (d : Data) (ls : List Text) (hne : ls ≠ []) (hls : ∀ l ∈ ls, isLine l ∧ plainText l = true)
    (hb : d.body = brs (areaVal (joinLines ls))) (hf : plainForm d = true) :
    Xml.readDoc (render d) = some (docTree d ls) := by
  have := readDoc_render d (joinLines ls) hb hf (plainText_join ls (fun l hl => (hls l hl).2))
  rwa [split_join ls hne (fun l hl => (hls l hl).1)] at this

/-- **C84**, the page: in "Send button" mode, with a known sequence selected and a connection that is open, "Now!" sends one document, numbered
for its sequence, and what is read from it is what is in the form and in the text area. -/
theorem C84_sent_partial (p : Page) (q : Text) (s : Seq) (n k : Nat) (q' : Text) (ls : List Text)
    (hm : p.sending = .live) (hq : p.selected = some q) (hs : get q p.store.seqs = some s) (hn : get q p.store.nums = some n)
    (hk : p.cur = some k) (ho : p.socks[k]? = some ⟨q', .open⟩)
    (hne : ls ≠ []) (hls : ∀ l ∈ ls, isLine l ∧ plainText l = true) (ht : p.text = joinLines ls)
    (hf : plainForm ⟨q, n, s, p.token, [], p.beg, p.fin, p.dur⟩ = true) :
    ∃ d, (step p .now).sent = p.sent ++ [(k, d)] ∧
      Xml.readDoc (render d) = some (docTree ⟨q, n, s, p.token, [], p.beg, p.fin, p.dur⟩ ls) := by
  refine ⟨⟨q, n, s, p.token, brs (areaVal p.text), p.beg, p.fin, p.dur⟩, ?_, ?_⟩
  · simp only [step, hm, if_true, Page.sendDocument, Page.submit, Page.data, hq, hs, hn, Page.send, hk, ho, Page.count]
  · have := C84_document_partial ⟨q, n, s, p.token, brs (areaVal p.text), p.beg, p.fin, p.dur⟩ ls hne hls (by rw [ht]) hf
    rw [this]
    rfl

theorem toNat_digs (n : Nat) : String.toNat? (String.ofList (Time.digs n)) = some n := by
  have h := Time.digs_props n
  have hd : ∀ c ∈ Time.digs n, c.isDigit = true ∧ c ≠ '_' := by
    intro c hc
    have h1 := List.all_eq_true.1 h.2.1 c hc
    simp only [Time.isDig, decide_eq_true_eq] at h1
    refine ⟨?_, fun he => ?_⟩
    · simp only [Char.isDigit, Bool.and_eq_true, decide_eq_true_eq, ge_iff_le, UInt32.le_iff_toNat_le]
      exact h1
    · rw [he] at h1
      exact absurd h1 (by decide)
  have hN : (String.ofList (Time.digs n)).toSlice.isNat = true := by
    refine String.Slice.isNat_of_isDigit ?_ ?_
    · simp [h.2.2]
    · simp only [String.copy_toSlice, String.toList_ofList]
      exact fun c hc => (hd c hc).1
  have := String.Slice.toNat?_eq_some_ofDigitChars hN
  rw [String.toNat?_toSlice, String.copy_toSlice, String.toList_ofList] at this
  rw [this]
  congr 1
  have hfil : (Time.digs n).filter (· != '_') = Time.digs n := List.filter_eq_self.2 (fun c hc => by simpa using (hd c hc).2)
  rw [hfil, Nat.ofDigitChars_eq_foldl]
  exact h.1

/-- What the server side reads from a tree is in the attributes of its root. -/
theorem bind_doc (mixed : Text → Bool) (d : Data) (ls : List Text) :
    let b := Adapt.bindOf (Xml.bindRead mixed (docTree d ls))
    b.sid = String.ofList d.sid ∧ b.num = d.num ∧ b.timeBase = String.ofList d.seq.timeBase := by
  have h12 : ("ebuttp:sequenceIdentifier".toList = "ebuttp:sequenceNumber".toList) = False := by simp
  have h13 : ("ebuttp:sequenceIdentifier".toList = "ttp:timeBase".toList) = False := by simp
  have h23 : ("ebuttp:sequenceNumber".toList = "ttp:timeBase".toList) = False := by simp
  have hs : Adapt.attrOf "ebuttp:sequenceIdentifier" (Xml.bindRead mixed (docTree d ls)) = some (String.ofList d.sid) := by
    simp only [docTree, Xml.bindRead, Adapt.attrOf, ttAttrs, List.cons_append, List.nil_append, List.find?_cons, decide_true, Option.map_some]
  have hn : Adapt.attrOf "ebuttp:sequenceNumber" (Xml.bindRead mixed (docTree d ls)) = some (String.ofList (Time.digs d.num)) := by
    simp only [docTree, Xml.bindRead, Adapt.attrOf, ttAttrs, List.cons_append, List.nil_append, List.find?_cons, decide_true, Option.map_some, h12, decide_false]
  have ht : Adapt.attrOf "ttp:timeBase" (Xml.bindRead mixed (docTree d ls)) = some (String.ofList d.seq.timeBase) := by
    simp only [docTree, Xml.bindRead, Adapt.attrOf, ttAttrs, List.cons_append, List.nil_append, List.find?_cons, decide_true, Option.map_some, h13, h23, decide_false]
  refine ⟨?_, ?_, ?_⟩
  · simp only [Adapt.bindOf, hs, Option.getD_some]
  · simp only [Adapt.bindOf, hn, Option.bind_some, toNat_digs, Option.getD_some]
  · simp only [Adapt.bindOf, ht, Option.getD_some]

/-- What a server makes of a text that arrived on a connection for a sequence. -/
def verdict (valid : Bool) (same : Bool) (b : Adapt.Bind) : Except Adapt.Err Adapt.Data :=
  if valid = true then (if same = true then .ok (.doc ⟨b, none⟩) else .error .otherSequence) else .error .invalid

/-- **C84**, the server: what the page sent arrives as a document with the sequence, number and time base of the page, if the document is
valid and the connection is for that sequence; on a connection for another sequence it is refused. -/
theorem C84_server_partial (mixed : Text → Bool) (valid : Adapt.Bind → Option Int → Bool) (toD : Adapt.Bind → Option String)
    (d : Data) (ls : List Text) (hne : ls ≠ []) (hls : ∀ l ∈ ls, isLine l ∧ plainText l = true)
    (hb : d.body = brs (areaVal (joinLines ls))) (hf : plainForm d = true) (q : String) :
    ∃ b : Adapt.Bind, b.sid = String.ofList d.sid ∧ b.num = d.num ∧ b.timeBase = String.ofList d.seq.timeBase ∧
      b.rest = String.ofList (Xml.writeDoc (Xml.bindRead mixed (docTree d ls))) ∧
      Adapt.taken (Adapt.xmlCodec mixed valid toD) [(q, String.ofList (render d))] = [verdict (valid b none) (q = String.ofList d.sid) b] := by
  have hb2 := bind_doc mixed d ls
  refine ⟨Adapt.bindOf (Xml.bindRead mixed (docTree d ls)), hb2.1, hb2.2.1, hb2.2.2, rfl, ?_⟩
  have hr : (Adapt.xmlCodec mixed valid toD).read (String.ofList (render d)) = some (.inl (Adapt.bindOf (Xml.bindRead mixed (docTree d ls)))) := by
    simp only [Adapt.xmlCodec, String.toList_ofList]
    rw [C84_document_partial d ls hne hls hb hf, Option.map_some]
    have : Adapt.isTt (Xml.bindRead mixed (docTree d ls)) = true := by
      simp only [docTree, Xml.bindRead, Adapt.isTt, decide_true]
    simp only [this, if_true]
  have ha : (Adapt.Kw.empty.set .sid (.str q)).avail = none := by simp [Adapt.Kw.avail, Adapt.Kw.set, Adapt.Kw.empty]
  have hv : ∀ b, (Adapt.xmlCodec mixed valid toD).valid b none = valid b none := fun _ => rfl
  simp only [Adapt.taken, List.map_cons, List.map_nil, Adapt.wsIn, Adapt.convertAll, Adapt.Adapter.convert]
  rw [hr]
  simp only
  rw [ha, hv]
  unfold verdict
  generalize Adapt.bindOf (Xml.bindRead mixed (docTree d ls)) = b at hb2 ⊢
  cases valid b none with
  | false => rfl
  | true =>
    by_cases hq : q = String.ofList d.sid
    · rw [if_pos rfl, if_pos (by simp [Adapt.sidMatches, Adapt.Kw.set, hb2.1, hq])]
      simp [hq]
      rfl
    · rw [if_pos rfl, if_neg (by simp [Adapt.sidMatches, Adapt.Kw.set, hb2.1, hq])]
      simp [hq]
      rfl

theorem submit_form (p : Page) : p.submit.text = p.text ∧ p.submit.maxLines = p.maxLines := by
  unfold Page.submit
  split
  · exact ⟨rfl, rfl⟩
  · split
    · exact ⟨rfl, rfl⟩
    · next d _ p' hp =>
      unfold Page.send at hp
      split at hp
      · injection hp with hp; rw [← hp]; exact ⟨rfl, rfl⟩
      · split at hp
        · cases hp
        · injection hp with hp; rw [← hp]; exact ⟨rfl, rfl⟩
        · injection hp with hp; rw [← hp]; exact ⟨rfl, rfl⟩

theorem key_form (p : Page) : p.key.text = p.text ∧ p.key.maxLines = p.maxLines := by
  unfold Page.key
  by_cases h : p.sending = .live
  · rw [if_pos h, Page.sendDocument, h]
    exact submit_form p
  · rw [if_neg h]
    exact ⟨rfl, rfl⟩

/-- **C84**, Enter: with a maximum of at least one line, the text area keeps as many of its last lines as leave room for the new empty line. -/
theorem C84_enter (p : Page) (ls : List Text) (hne : ls ≠ []) (hls : ∀ l ∈ ls, isLine l) (ht : p.text = joinLines ls) (hm : 1 ≤ p.maxLines) :
    ∃ gone kept, ls = gone ++ kept ∧ kept.length = min ls.length (p.maxLines - 1) ∧ (step p .enter).text = joinLines (kept ++ [[]]) := by
  have hk := key_form p
  have hlen : 0 < ls.length := List.length_pos_iff.2 hne
  by_cases h1 : p.maxLines = 1
  · refine ⟨ls, [], by simp, by simp [h1], ?_⟩
    simp only [step, hk.2, h1, if_true]
    rfl
  · refine ⟨ls.take (ls.length + 1 - p.maxLines), ls.drop (ls.length + 1 - p.maxLines), (List.take_append_drop _ _).symm, ?_, ?_⟩
    · rw [List.length_drop]; omega
    · have h0 : p.maxLines ≠ 0 := by omega
      simp only [step, hk.2, h1, h0, if_false, hk.1, ht]
      rw [split_join ls hne hls, shiftAll, join_break]
      intro he
      have := congrArg List.length he
      rw [List.length_drop, List.length_nil] at this
      omega

/-- The loop that removes lines ends for every maximum but zero, after at most one turn for each line, with the lines of `C84_enter`. -/
theorem C84_loop_ends (max : Nat) (h : 1 ≤ max) (ls : List Text) :
    shiftLoop max (ls.length + 1) ls = some (ls.drop (ls.length + 1 - max)) := shiftLoop_eq max h _ ls (Nat.lt_succ_self _)

/-- With zero lines, or an empty field, the loop does not end: the page hangs when Enter is pressed. -/
theorem C84_false_hang (turns : Nat) : ∀ ls : List Text, shiftLoop 0 turns ls = none := by
  induction turns with
  | zero => exact fun _ => rfl
  | succ n ih => exact fun ls => ih ls.tail

/-! ### Examples -/

/-- A form: sequence `news`, number 12, clock times, a group and a token; times on the body. -/
def exData (text : String) : Data :=
  ⟨"news".toList, 12, ⟨"clock".toList, some "utc".toList, some "authors".toList⟩, "3".toList, brs (areaVal text.toList), "00:00:01".toList, [], "2s".toList⟩

def exLines : List Text := ["Good evening.".toList, [], "Here is the \"news\".".toList]

example : exLines ≠ [] ∧ (∀ l ∈ exLines, isLine l ∧ plainText l = true) ∧ (exData "Good evening.\n\nHere is the \"news\".").body = brs (areaVal (joinLines exLines)) ∧
    plainForm (exData "Good evening.\n\nHere is the \"news\".") = true := by
  refine ⟨by decide, ?_, by decide +kernel, by decide +kernel⟩
  unfold isLine
  decide +kernel

/-- A page with that form and a connection. -/
def exPage : Page :=
  run [.create "news".toList ⟨"clock".toList, some "utc".toList, some "authors".toList⟩, .connect, .opened 0,
    .type "Good evening.\n\nHere is the \"news\".".toList "00:00:01".toList [] "2s".toList "3".toList 2]

example : exPage.sending = .live ∧ exPage.selected = some "news".toList ∧ (get "news".toList exPage.store.seqs).isSome = true ∧
    get "news".toList exPage.store.nums = some 1 ∧ exPage.cur = some 0 ∧ exPage.socks[0]? = some ⟨"news".toList, .open⟩ ∧
    exPage.text = joinLines exLines := by
  decide +kernel

/-- Two lines at most: the last one stays. -/
example : (step exPage .enter).text = "Here is the \"news\".\n".toList := by decide +kernel

/-- What is typed is not escaped: an ampersand makes the document unreadable. -/
theorem C84_false_ampersand : (Xml.readDoc (render (exData "Fish & chips"))).isNone = true := by decide +kernel

/-- Markup that is typed is markup: with one line of text, the document is that of two lines. -/
theorem C84_false_markup : render (exData "one<tt:br/>two") = render (exData "one\ntwo") := by decide +kernel

end Verif.Ui
