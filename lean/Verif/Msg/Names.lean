import Verif.Msg.Props
import Verif.Xml.Ttd

/-!
# C96: the names in a message are those of the schema

`Msg.readTree` compares names with their prefixes.  Here the prefixes of what is written are resolved with the declarations of the
message itself, as an XML reader does that knows nothing of the prefixes.
-/
namespace Verif.Msg

open Verif.Xml (X Text)

/-! ### Specification -/

/-- The namespace declared for a prefix. -/
def declared (as : List (Text × Text)) (p : Text) : Option Text := (as.find? (fun a => a.1 = "xmlns:".toList ++ p)).map (·.2)

/-- The namespace and the local part of a name with a prefix. -/
def expand (as : List (Text × Text)) (n : Text) : Option (Text × Text) :=
  (declared as (n.takeWhile (· ≠ ':'))).map (fun ns => (ns, (n.dropWhile (· ≠ ':')).drop 1))

/-- What an XML reader finds: the names of the elements, in the order in which they begin. -/
def expandTags (as : List (Text × Text)) (x : X) : List (Option (Text × Text)) := (Xml.Ttd.tags x).map (expand as)

def liveMessage (n : String) : Option (Text × Text) := some ("urn:ebu:tt:livemessage".toList, n.toList)

/-! ### Theorems -/

theorem tagss_append : ∀ a b : List X, Xml.Ttd.tagss (a ++ b) = Xml.Ttd.tagss a ++ Xml.Ttd.tagss b
  | [], b => by simp [Xml.Ttd.tagss]
  | x :: a, b => by simp [Xml.Ttd.tagss, tagss_append a b]

theorem tagss_leaves (t : Text) : ∀ rs : List Text, Xml.Ttd.tagss (rs.map (leaf t)) = rs.map (fun _ => t)
  | [] => rfl
  | r :: rs => by simp [Xml.Ttd.tagss, Xml.Ttd.tags, leaf, tagss_leaves t rs]

theorem declared_sid (v p : Text) : declared ((sidName, v) :: nsAttrs) p = declared nsAttrs p := by
  have h1 : sidName.head? = some 'e' := by decide +kernel
  have h2 : "xmlns:".toList = 'x' :: "mlns:".toList := by decide +kernel
  have : ¬ (decide (sidName = "xmlns:".toList ++ p) = true) := by
    rw [decide_eq_true_eq, h2]
    intro h
    rw [h, List.cons_append, List.head?_cons] at h1
    exact absurd (Option.some.inj h1) (by decide)
  unfold declared
  rw [List.find?_cons_of_neg (p := fun a => decide (a.1 = "xmlns:".toList ++ p)) (a := (sidName, v)) this]

theorem expand_sid (v n : Text) : expand ((sidName, v) :: nsAttrs) n = expand nsAttrs n := by
  unfold expand
  rw [declared_sid]

/-- **C96**: the elements of a message are, in the order of the schema, those of the namespace of live messages, with the sender only
if there is one; its only attribute but for declarations is the sequence identifier, of the namespace of parameters. -/
theorem C96_names (m : Message) (d : Text) (hp : m.payload = .text d) :
    ∃ as ks, tree m = .elem messageTag as ks ∧
      expandTags as (tree m) = [liveMessage "message", liveMessage "header"] ++
        (if m.sender.getD [] = [] then [] else [liveMessage "sender"]) ++ (m.recipients.getD []).map (fun _ => liveMessage "recipient") ++
        [liveMessage "type", liveMessage "payload"] ∧
      as.filter (fun a => !("xmlns:".toList.isPrefixOf a.1)) = [(sidName, m.sid)] ∧
      expand as sidName = some ("urn:ebu:tt:parameters".toList, "sequenceIdentifier".toList) := by
  refine ⟨_, _, rfl, ?_, ?_, ?_⟩
  · have hx := expand_sid m.sid
    have e1 : expand ((sidName, m.sid) :: nsAttrs) messageTag = liveMessage "message" := by rw [hx]; decide +kernel
    have e2 : expand ((sidName, m.sid) :: nsAttrs) headerTag = liveMessage "header" := by rw [hx]; decide +kernel
    have e3 : expand ((sidName, m.sid) :: nsAttrs) senderTag = liveMessage "sender" := by rw [hx]; decide +kernel
    have e4 : expand ((sidName, m.sid) :: nsAttrs) recipientTag = liveMessage "recipient" := by rw [hx]; decide +kernel
    have e5 : expand ((sidName, m.sid) :: nsAttrs) typeTag = liveMessage "type" := by rw [hx]; decide +kernel
    have e6 : expand ((sidName, m.sid) :: nsAttrs) payloadTag = liveMessage "payload" := by rw [hx]; decide +kernel
    unfold expandTags tree headerKids
    rw [hp]
    simp only [payloadKids, Xml.Ttd.tags, Xml.Ttd.tagss, tagss_append, tagss_leaves, List.map_cons, List.map_append, List.map_map,
      List.map_nil, e1, e2, e5, e6, leaf]
    cases hs : m.sender with
    | none => simp [Xml.Ttd.tagss, e4]
    | some s =>
      by_cases h : s = []
      · subst h; simp [Xml.Ttd.tagss, e4]
      · simp [h, Xml.Ttd.tagss, Xml.Ttd.tags, e3, e4]
  · have h1 : "xmlns:".toList.isPrefixOf sidName = false := by decide +kernel
    have h2 : nsAttrs.filter (fun a => !("xmlns:".toList.isPrefixOf a.1)) = [] := by decide +kernel
    rw [List.filter_cons_of_pos (by rw [h1]; rfl), h2]
  · rw [expand_sid]
    decide +kernel

example : exMessage.payload = .text "Please hand over!".toList := rfl

example : expandTags nsAttrs (tree exMessage) =
    ["message", "header", "sender", "recipient", "recipient", "type", "payload"].map liveMessage := by decide +kernel

end Verif.Msg
