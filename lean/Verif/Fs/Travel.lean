import Verif.Fs.Encoding

/-!
# Texts and bytes on their way over folders and websockets (C113)

In Python 2 the two outputs differ: a folder output encodes a `unicode` text as ASCII and writes a `str` as it
is; a websocket output calls `data.encode("utf-8")`, which encodes a `unicode` text as UTF-8, but first decodes a
`str` as ASCII.  Either conversion raises at anything outside ASCII.  What arrives is a `str` both ways.
-/
namespace Verif.Fs.Travel
open Verif.Fs Verif.Fs.Encoding Verif.Time

/-! ### Model -/

/-- The `data` of `emit_data` and `process_document`: a `unicode` text or a `str` of bytes. -/
inductive Data where
  | text (l : Text)
  | bytes (b : ByteArray)

/-- The characters that parsing sees (`CreateFromDocument`, adapters/document_data.py:22): a `str` without an
encoding declaration (`toprettyxml` without encoding writes none) is read as UTF-8, as the XML specification
says; `none` if it is not UTF-8. -/
def Data.content : Data → Option Text
  | .text l => some l
  | .bytes b => b.utf8Decode?.map Array.toList

/-- `text.encode("utf-8")`. -/
def utf8 (l : Text) : ByteArray := (l.flatMap String.utf8EncodeChar).toByteArray

/-- All bytes are ASCII. -/
def lowBytes (b : ByteArray) : Bool := b.data.toList.all (fun x => decide (x < 128))

/-- The two carriages over which nodes in different processes are connected. -/
inductive Carriage where
  | folder
  | socket
deriving DecidableEq

/-- The bytes an output puts on its carriage, `none` if it raises.  `folder`: `destfile.write(data)`
(carriage/filesystem.py:156-158).  `socket`: `data.encode("utf-8")` (twisted/websocket.py:172-178); with at
least one subscriber, otherwise nothing is encoded. -/
def Carriage.put : Carriage → Data → Option ByteArray
  | .folder, .text l => if encodes l then some (utf8 l) else none
  | .folder, .bytes b => some b
  | .socket, .text l => some (utf8 l)
  | .socket, .bytes b => if lowBytes b then some b else none

/-- What the input at the other end is handed: `xml_file.read()` (filesystem.py:259-260), the payload of a
message (twisted/websocket.py:234-237, 359-362); both are a `str`. -/
def Carriage.carry (c : Carriage) (d : Data) : Option Data := (c.put d).map .bytes

/-- What a node does with the data.  `relay`: a distributing node with a document (node/distributing.py:26-27),
which sends the very data its document was read from (`raw_xml`, adapters/document_data.py:40-42).  `rebuild`: any
other node, and a distributing node with a message: it sends `get_xml()` of a document, a `unicode`.  What nodes
change in documents is left out: the new text has the same characters. -/
inductive Step where
  | relay
  | rebuild
deriving DecidableEq

/-- Both read the data first; `none` if that fails. -/
def Step.take : Step → Data → Option Data
  | .relay, d => d.content.map (fun _ => d)
  | .rebuild, d => d.content.map .text

/-- Through nodes, each followed by the carriage of its output. -/
def travel : List (Step × Carriage) → Data → Option Data
  | [], d => some d
  | (n, c) :: hops, d => ((n.take d).bind c.carry).bind (travel hops)

/-! ### Proofs -/

theorem content_encoded (l : Text) : (Data.bytes (utf8 l)).content = some l := by
  have : utf8 l = l.utf8Encode := rfl
  simp [Data.content, this, List.utf8Decode?_utf8Encode]

theorem byte_low (n : Nat) (h : n < 256) : decide (UInt8.ofNat n < 128) = decide (n < 128) := by
  simp only [UInt8.lt_iff_toNat_lt, decide_eq_decide]
  rw [UInt8.toNat_ofNat']
  show n % 256 < 128 ↔ n < 128
  omega

theorem char_low (c : Char) : (String.utf8EncodeChar c).all (fun x => decide (x < 128)) = decide (c.toNat < 128) := by
  have hv : c.val.toNat = c.toNat := rfl
  unfold String.utf8EncodeChar
  simp only [hv]
  split
  · rename_i h
    simp only [List.all_cons, List.all_nil, Bool.and_true]
    exact byte_low _ (by omega)
  · rename_i h
    have h0 : decide (c.toNat < 128) = false := by simp; omega
    rw [h0]
    split
    · rw [List.all_cons, byte_low _ (by omega), decide_eq_false (by omega)]; rfl
    · split
      · rw [List.all_cons, byte_low _ (by omega), decide_eq_false (by omega)]; rfl
      · rw [List.all_cons, byte_low _ (by omega), decide_eq_false (by omega)]; rfl

theorem utf8_list (l : Text) : (utf8 l).data.toList = l.flatMap String.utf8EncodeChar := by
  simp [utf8]

theorem lowBytes_encoded (l : Text) : lowBytes (utf8 l) = encodes l := by
  unfold lowBytes encodes
  rw [utf8_list, List.all_flatMap]
  congr 1
  funext c
  exact char_low c

/-- Data with characters `l` are their text or their bytes. -/
def Holds (l : Text) (d : Data) : Prop := d = .text l ∨ d = .bytes (utf8 l)

theorem Holds.content {l : Text} {d : Data} (h : Holds l d) : d.content = some l := by
  rcases h with rfl | rfl
  · rfl
  · exact content_encoded l

theorem Holds.take {l : Text} {d e : Data} (h : Holds l d) (n : Step) (he : n.take d = some e) :
    e = match n with | .relay => d | .rebuild => .text l := by
  cases n <;> simp only [Step.take, h.content, Option.map_some, Option.some.injEq] at he <;> exact he.symm

theorem Holds.carry {l : Text} {d e : Data} (h : Holds l d) (c : Carriage) (he : c.carry d = some e) :
    e = .bytes (utf8 l) := by
  rcases h with rfl | rfl <;> cases c <;> simp only [Carriage.carry, Carriage.put] at he
  · split at he <;> simp at he; exact he.symm
  · simp at he; exact he.symm
  · simp at he; exact he.symm
  · split at he <;> simp at he; exact he.symm

theorem Holds.hop {l : Text} {d e : Data} (h : Holds l d) (n : Step) (c : Carriage)
    (he : (n.take d).bind c.carry = some e) : e = .bytes (utf8 l) := by
  cases ht : n.take d with
  | none => rw [ht] at he; exact absurd he (by simp)
  | some f =>
    rw [ht] at he
    have hf : Holds l f := by
      have := h.take n ht
      cases n
      · rw [this]; exact h
      · rw [this]; exact .inl rfl
    exact hf.carry c he

theorem Holds.travel {l : Text} : ∀ (hops : List (Step × Carriage)) {d e : Data}, Holds l d →
    travel hops d = some e → Holds l e := by
  intro hops
  induction hops with
  | nil => intro d e h he; simp only [Travel.travel, Option.some.injEq] at he; rw [← he]; exact h
  | cons x hops ih =>
    intro d e h he
    obtain ⟨n, c⟩ := x
    rw [Travel.travel] at he
    cases hf : (n.take d).bind c.carry with
    | none => rw [hf] at he; exact absurd he (by simp)
    | some f =>
      rw [hf] at he
      exact ih (.inr (h.hop n c hf)) he

/-- One hop of data that is text. -/
theorem hop_text (l : Text) (n : Step) (c : Carriage) :
    (n.take (.text l)).bind c.carry
      = if c = .socket ∨ Plain l then some (.bytes (utf8 l)) else none := by
  have hp : encodes l = true ↔ Plain l := encodes_iff l
  cases n <;> cases c <;> by_cases h : Plain l <;>
    simp [Step.take, Data.content, Carriage.carry, Carriage.put, h, hp]

/-- One hop of data that is bytes. -/
theorem hop_bytes (l : Text) (n : Step) (c : Carriage) :
    (n.take (.bytes (utf8 l))).bind c.carry
      = if (n, c) = (.rebuild, .socket) ∨ (n, c) = (.relay, .folder) ∨ Plain l then some (.bytes (utf8 l)) else none := by
  have hp : encodes l = true ↔ Plain l := encodes_iff l
  cases n <;> cases c <;> by_cases h : Plain l <;>
    simp [Step.take, content_encoded, Carriage.carry, Carriage.put, lowBytes_encoded, h, hp]

/-- **C113.** Over whatever folders, websockets and nodes a text travels: what arrives has exactly its characters.
It may be lost, but is never garbled. -/
theorem C113_never_garbled (hops : List (Step × Carriage)) (l : Text) (d : Data)
    (h : travel hops (.text l) = some d) : d.content = some l :=
  (Holds.travel hops (.inl rfl) h).content

/-- Bytes travel on. -/
theorem travel_bytes (l : Text) : ∀ (hops : List (Step × Carriage)),
    travel hops (.bytes (utf8 l)) = if Plain l ∨ ∀ h ∈ hops, h = (.rebuild, .socket) ∨ h = (.relay, .folder)
      then some (.bytes (utf8 l)) else none := by
  intro hops
  induction hops with
  | nil => simp [travel]
  | cons x hops ih =>
    obtain ⟨n, c⟩ := x
    rw [travel, hop_bytes]
    by_cases hp : Plain l
    · simp [hp, ih]
    · by_cases hx : (n, c) = (.rebuild, .socket) ∨ (n, c) = (.relay, .folder)
      · have h1 : ((n, c) = (Step.rebuild, Carriage.socket) ∨ (n, c) = (Step.relay, Carriage.folder) ∨ Plain l) := by
          rcases hx with h | h
          · exact .inl h
          · exact .inr (.inl h)
        rw [if_pos h1, Option.bind_some, ih]
        congr 1
        simp only [List.forall_mem_cons, hp, false_or, hx, true_and]
      · have h1 : ¬ ((n, c) = (Step.rebuild, Carriage.socket) ∨ (n, c) = (Step.relay, Carriage.folder) ∨ Plain l) := by
          rintro (h | h | h)
          · exact hx (.inl h)
          · exact hx (.inr h)
          · exact hp h
        rw [if_neg h1, Option.bind_none, if_neg]
        rintro (h | h)
        · exact hp h
        · exact hx (h _ (by simp))

/-- **C113.** Text in ASCII arrives, whatever the way. -/
theorem C113_plain_arrives_partial (hops : List (Step × Carriage)) (l : Text) (hp : Plain l) :
    ∃ d, travel hops (.text l) = some d ∧ d.content = some l := by
  cases hops with
  | nil => exact ⟨_, rfl, rfl⟩
  | cons x hops =>
    obtain ⟨n, c⟩ := x
    refine ⟨.bytes (utf8 l), ?_, content_encoded l⟩
    rw [travel, hop_text, if_pos (.inr hp), Option.bind_some, travel_bytes, if_pos (.inl hp)]

/-- **C113.** Exactly when a text with a character outside ASCII arrives: its first output is a websocket, and after
that every node that makes a new text has a websocket behind it and every distributing node a folder. -/
theorem C113_arrives_iff (n : Step) (c : Carriage) (hops : List (Step × Carriage)) (l : Text) (hp : ¬ Plain l) :
    (∃ d, travel ((n, c) :: hops) (.text l) = some d) ↔
      c = .socket ∧ ∀ h ∈ hops, h = (.rebuild, .socket) ∨ h = (.relay, .folder) := by
  rw [travel, hop_text]
  by_cases hc : c = .socket
  · rw [if_pos (.inl hc), Option.bind_some, travel_bytes]
    by_cases hall : ∀ h ∈ hops, h = (.rebuild, .socket) ∨ h = (.relay, .folder)
    · rw [if_pos (.inr hall)]; exact ⟨fun _ => ⟨hc, hall⟩, fun _ => ⟨_, rfl⟩⟩
    · rw [if_neg (fun h => h.elim hp hall)]
      exact ⟨fun ⟨_, h⟩ => absurd h (by simp), fun h => absurd h.2 hall⟩
  · rw [if_neg (fun h => h.elim hc hp), Option.bind_none]
    exact ⟨fun ⟨_, h⟩ => absurd h (by simp), fun h => absurd h.1 hc⟩

/-! ### The folder in both models -/

/-- A call of a folder output with this data. -/
def asCall (d : Data) (o : Out) : Call :=
  match d with
  | .text l => ⟨{ o with data := l }, true⟩
  | .bytes b => ⟨{ o with data := b.data.toList.map (fun x => Char.ofNat x.toNat) }, false⟩

/-- A folder output raises here exactly if it does in `emitData`. -/
theorem folder_agrees (d : Data) (o : Out) (k : Nat) (hs : Plain o.seq) :
    Carriage.folder.put d = none ↔ (emitData k (asCall d o)).2.2 = true := by
  rw [C113_raises_iff]
  cases d with
  | text l =>
    have hp := encodes_iff l
    by_cases h : Plain l <;> simp [Carriage.put, asCall, Writable, hs, h, hp]
  | bytes b => simp [Carriage.put, asCall, Writable, hs]

/-! ### Witnesses -/

/-- The hypotheses are met: one text travels two websockets and then a folder, another one a longer way. -/
example : ¬ Plain ['é'] ∧ ∃ d, travel [(.rebuild, .socket), (.rebuild, .socket), (.relay, .folder)] (.text ['é']) = some d :=
  ⟨by decide +kernel, (C113_arrives_iff _ _ _ _ (by decide +kernel)).2 ⟨rfl, by decide +kernel⟩⟩

example : Plain "one".toList := by decide +kernel

/-- Two bytes for one character. -/
example : (utf8 ['é']).data.toList = [0xc3, 0xa9] := by decide +kernel

/-- A text with an accent is lost at a folder output. -/
theorem C113_false_folder : travel [(.rebuild, .folder)] (.text ['é']) = none := by
  have h := C113_arrives_iff .rebuild .folder [] ['é'] (by decide +kernel)
  cases ht : travel [(.rebuild, .folder)] (.text ['é']) with
  | none => rfl
  | some d => exact absurd (h.1 ⟨d, ht⟩).1 (by decide)

/-- It arrives at a distributing node over a websocket, and is lost at that node's websocket output. -/
theorem C113_false_distributing :
    (∃ d, travel [(.rebuild, .socket)] (.text ['é']) = some d) ∧
    travel [(.rebuild, .socket), (.relay, .socket)] (.text ['é']) = none := by
  refine ⟨(C113_arrives_iff _ _ _ _ (by decide +kernel)).2 ⟨rfl, by simp⟩, ?_⟩
  have h := C113_arrives_iff .rebuild .socket [(.relay, .socket)] ['é'] (by decide +kernel)
  cases ht : travel [(.rebuild, .socket), (.relay, .socket)] (.text ['é']) with
  | none => rfl
  | some d => exact absurd ((h.1 ⟨d, ht⟩).2 (.relay, .socket) (by simp)) (by decide)

end Verif.Fs.Travel
