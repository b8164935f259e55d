import Verif.Msg.Props
import Verif.Ui.Lemmas

/-!
# C96: messages of the user input page
-/
namespace Verif.Msg

open Verif.Xml (Text X glue run run_append run_cons run_nil)

/-- The fixed parts of the template (template/live_message_template.xml). -/
def part1 : Text := "<?xml version=\"1.0\" ?>\n<ebuttlm:message\n        ebuttp:sequenceIdentifier=\"".toList
def part2 : Text :=
  "\"\n        xmlns:ebuttp=\"urn:ebu:tt:parameters\"\n        xmlns:ebuttlm=\"urn:ebu:tt:livemessage\" >\n    <ebuttlm:header>\n      ".toList
def part3 : Text := "\n        <ebuttlm:sender>".toList
def part4 : Text := "</ebuttlm:sender>\n      ".toList
def part5 : Text :=
  "\n      \n      \n      \n        <ebuttlm:type>authorsGroupControlRequest</ebuttlm:type>\n    </ebuttlm:header>\n    <ebuttlm:payload>".toList
def part6 : Text := "</ebuttlm:payload>\n</ebuttlm:message>".toList

def pageAttrs (q : Text) : List (Text × Text) :=
  [(sidName, q), ("xmlns:ebuttp".toList, "urn:ebu:tt:parameters".toList), ("xmlns:ebuttlm".toList, "urn:ebu:tt:livemessage".toList)]

def sp (s : String) : X := .text s.toList

/-- The children of the header (the last first). -/
def pageHeader (q : Text) : List X :=
  [sp "\n    ", .elem typeTag [] [.text requestType], sp "\n      \n      \n      \n      \n        ", .elem senderTag [] [.text q], sp "\n      \n        "]

theorem run_part1 : run ⟨[], [], .text⟩ part1 = ⟨[sp "\n"], [], .val messageTag [] sidName []⟩ := by rfl

def part2a : Text := "\"\n        xmlns:ebuttp=\"urn:ebu:tt:parameters\"".toList
def part2b : Text := "\n        xmlns:ebuttlm=\"urn:ebu:tt:livemessage\"".toList
def part2c : Text := " >\n    <ebuttlm:header>\n      ".toList
def part5a : Text := "\n      \n      \n      \n        ".toList
def part5b : Text := "<ebuttlm:type>".toList
def part5c : Text := "</ebuttlm:type>".toList
def part5d : Text := "\n    </ebuttlm:header>".toList
def part5e : Text := "\n    <ebuttlm:payload>".toList

theorem run_part2a (l u) (t n q : Text) : run ⟨l, u, .val t [] n q⟩ part2a =
    ⟨l, u, .gap t [(n, q), ("xmlns:ebuttp".toList, "urn:ebu:tt:parameters".toList)]⟩ := by rfl
theorem run_part2b (l u) (t : Text) (as) : run ⟨l, u, .gap t as⟩ part2b =
    ⟨l, u, .gap t (as ++ [("xmlns:ebuttlm".toList, "urn:ebu:tt:livemessage".toList)])⟩ := by rfl
theorem run_part2c (l u) (t : Text) (as) : run ⟨l, u, .gap t as⟩ part2c =
    ⟨[sp "\n      "], (headerTag, [], [sp "\n    "]) :: (t, as, l) :: u, .text⟩ := by rfl

theorem run_part2 (l : List X) (q : Text) : run ⟨l, [], .val messageTag [] sidName q⟩ part2 =
    ⟨[sp "\n      "], [(headerTag, [], [sp "\n    "]), (messageTag, pageAttrs q, l)], .text⟩ := by
  have h : part2 = part2a ++ (part2b ++ part2c) := by decide +kernel
  rw [h, run_append, run_part2a, run_append, run_part2b, run_part2c]
  rfl

theorem run_part3 (u) : run ⟨[sp "\n      "], u, .text⟩ part3 = ⟨[], (senderTag, [], [sp "\n      \n        "]) :: u, .text⟩ := by rfl

theorem run_part4 (x l : List X) (u) : run ⟨x, (senderTag, [], l) :: u, .text⟩ part4 = ⟨sp "\n      " :: .elem senderTag [] x.reverse :: l, u, .text⟩ := by rfl

theorem run_part5a (l u) : run ⟨sp "\n      " :: l, u, .text⟩ part5a = ⟨sp "\n      \n      \n      \n      \n        " :: l, u, .text⟩ := by
  rw [Xml.run_blanks _ _ _ (by decide +kernel)]
  have h : "\n      ".toList ++ part5a = "\n      \n      \n      \n      \n        ".toList := by decide +kernel
  have h0 : part5a ≠ [] := by decide +kernel
  rw [sp, glue, if_neg h0]
  rw [h]
  rfl
theorem run_part5b (l u) : run ⟨l, u, .text⟩ part5b = ⟨[], (typeTag, [], l) :: u, .text⟩ := by rfl
theorem run_request (u) : run ⟨[], u, .text⟩ requestType = ⟨[.text requestType], u, .text⟩ := by
  rw [Ui.run_rawText _ _ _ (by decide +kernel) (by decide +kernel)]
  have h0 : requestType ≠ [] := by decide +kernel
  simp [glue, h0]
theorem run_part5c (k l u) : run ⟨k, (typeTag, [], l) :: u, .text⟩ part5c = ⟨.elem typeTag [] k.reverse :: l, u, .text⟩ := by rfl
theorem run_part5d (x as ks k as' l u) : run ⟨.elem x as ks :: k, (headerTag, as', l) :: u, .text⟩ part5d =
    ⟨.elem headerTag as' (sp "\n    " :: .elem x as ks :: k).reverse :: l, u, .text⟩ := by rfl
theorem run_part5e (x as ks l u) : run ⟨.elem x as ks :: l, u, .text⟩ part5e = ⟨[], (payloadTag, [], sp "\n    " :: .elem x as ks :: l) :: u, .text⟩ := by rfl

theorem run_part5 (x : X) (l : List X) (as) (u) : run ⟨sp "\n      " :: x :: l, [(headerTag, as, [sp "\n    "]), u], .text⟩ part5 =
    ⟨[], [(payloadTag, [], [sp "\n    ", .elem headerTag as (sp "\n    " :: .elem typeTag [] [.text requestType] ::
      sp "\n      \n      \n      \n      \n        " :: x :: l).reverse, sp "\n    "]), u], .text⟩ := by
  have h : part5 = part5a ++ (part5b ++ (requestType ++ (part5c ++ (part5d ++ part5e)))) := by decide +kernel
  rw [h, run_append, run_part5a, run_append, run_part5b, run_append, run_request, run_append, run_part5c, run_append, run_part5d, run_part5e]
  rfl

theorem run_part6 (k l m : List X) (as as') : run ⟨k, [(payloadTag, as', l), (messageTag, as, m)], .text⟩ part6 =
    ⟨.elem messageTag as (sp "\n" :: .elem payloadTag as' k.reverse :: l).reverse :: m, [], .text⟩ := by rfl

theorem render_parts (q d : Text) (h : q ≠ []) :
    Ui.renderMessage q d = part1 ++ (q ++ (part2 ++ (part3 ++ (q ++ (part4 ++ (part5 ++ (d ++ part6))))))) := by
  unfold Ui.renderMessage part1 part2 part3 part4 part5 part6
  rw [if_neg h]
  simp only [List.append_assoc]

/-- The tree the page sends. -/
def pageTree (q d : Text) : X :=
  .elem messageTag (pageAttrs q)
    [sp "\n    ", .elem headerTag [] (pageHeader q).reverse, sp "\n    ", .elem payloadTag [] (glue [] d).reverse, sp "\n"]

theorem readDoc_page (q d : Text) (h0 : q ≠ []) (hq : Ui.plainVal q = true) (hq' : Ui.plainText q = true) (hr : '\r' ∉ q)
    (hd : Ui.plainText d = true) (hd' : '\r' ∉ d) :
    Xml.readDoc (Ui.renderMessage q d) = some (pageTree q d) := by
  rw [render_parts q d h0]
  unfold Xml.readDoc
  rw [run_append, run_part1, run_append, Ui.run_rawVal _ _ _ _ _ _ _ hq, List.nil_append, run_append, run_part2, run_append, run_part3,
    run_append, Ui.run_rawText _ _ _ hq' hr, run_append, run_part4, run_append, run_part5, run_append, Ui.run_rawText _ _ _ hd hd', run_part6]
  have hg : glue [] q = [.text q] := by simp [glue, h0]
  rw [hg]
  rfl

/-- **C96**, the page: what is typed as a request and sent from the user input page reaches the server as a message of the selected
sequence, sent in its name, to nobody in particular, with that text; typed markup aside. -/
theorem C96_page_partial (ncName : Text → Bool) (hnc : ncName requestType = true) (q d : Text) (hq : goodSid q)
    (hq' : Ui.plainVal q = true) (h0 : d ≠ []) (hd : Ui.plainText d = true) (hd' : '\r' ∉ d) :
    adapt ncName (some q) (Ui.renderMessage q d) = .ok (some ⟨q, some q, some [], .text d, none⟩) := by
  have h1 : Ui.plainText q = true ∧ '\r' ∉ q := by
    constructor
    · rw [Ui.plainText, List.all_eq_true]
      intro c hc
      have := List.all_eq_true.1 hq' c hc
      simp only [Bool.and_eq_true] at this ⊢
      exact ⟨this.2, this.1.2⟩
    · intro hc
      have := List.all_eq_true.1 hq' _ hc
      exact absurd this (by decide)
  have hg : (glue [] d).reverse = [.text d] := by simp [glue, h0]
  have ha : readAttrs (pageAttrs q) = some q := by
    have h2 : (pageAttrs q).all (fun a => a.1 = sidName || "xmlns".toList.isPrefixOf a.1) = true := by
      unfold pageAttrs
      rw [List.all_cons]
      have : [("xmlns:ebuttp".toList, "urn:ebu:tt:parameters".toList), ("xmlns:ebuttlm".toList, "urn:ebu:tt:livemessage".toList)].all
          (fun a => a.1 = sidName || "xmlns".toList.isPrefixOf a.1) = true := by decide +kernel
      rw [this]
      simp
    unfold readAttrs
    rw [if_pos h2]
    simp [pageAttrs, hq.1]
  have hs : strip requestType = requestType := by decide +kernel
  have e1 : ¬ typeTag = recipientTag := by decide +kernel
  have hh : readHeader ncName [.elem senderTag [] [.text q], .elem typeTag [] [.text requestType]] = some ⟨some q, [], requestType⟩ := by
    rw [readHeader, readTail]
    simp [simple, e1, hs, hnc]
  have ht : readTree ncName (pageTree q d) = some ⟨q, ⟨some q, [], requestType⟩, [.text d]⟩ := by
    rw [pageTree, hg, readTree, ha]
    have k1 : Xml.dropBlank [sp "\n    ", .elem headerTag [] (pageHeader q).reverse, sp "\n    ", .elem payloadTag [] [.text d], sp "\n"] =
        [.elem headerTag [] (pageHeader q).reverse, .elem payloadTag [] [.text d]] := rfl
    have k2 : Xml.dropBlank (pageHeader q).reverse = [.elem senderTag [] [.text q], .elem typeTag [] [.text requestType]] := rfl
    rw [k1]
    simp only [List.isEmpty_nil, and_self, if_true]
    rw [k2, hh]
    rfl
  unfold adapt parse
  rw [readDoc_page q d hq.1 hq' h1.1 h1.2 hd hd', pageTree]
  rw [pageTree] at ht
  simp only [if_true, ht, ofBinding]

/-- A request that meets the conditions. -/
example : adapt letters (some "Seq1".toList) (Ui.renderMessage "Seq1".toList "Let me \"in\" > now".toList) =
    .ok (some ⟨"Seq1".toList, some "Seq1".toList, some [], .text "Let me \"in\" > now".toList, none⟩) :=
  C96_page_partial letters (by decide +kernel) _ _ ⟨by decide, by decide +kernel⟩ (by decide +kernel) (by decide) (by decide +kernel) (by decide +kernel)

/-- It fails for an ampersand, and for a request without text: the server refuses the message. -/
theorem C96_false_page :
    errIs (adapt letters (some "S".toList) (Ui.renderMessage "S".toList "you & me".toList)) .refused = true ∧
    errIs (adapt letters (some "S".toList) (Ui.renderMessage "S".toList [])) .noPayload = true := by
  decide +kernel

end Verif.Msg
