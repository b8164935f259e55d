import Verif.Fs.Props

/-!
# A folder output and characters outside ASCII (C113)

In Python 2, which the toolkit is written for (README.md:22), `open(filepath, 'w').write(data)`
encodes a `unicode` text as ASCII and raises `UnicodeEncodeError` at any other character; a `str` is a
series of bytes and is written as it is.  `'{sequence_identifier}_{counter}.xml'.format(…)` on a `str`
pattern raises the same error at an identifier with other characters.
-/
namespace Verif.Fs.Encoding
open Verif.Fs Verif.Time

/-! ### Model -/

/-- A call of `emit_data` and the type of its `data`.  `text`: a `unicode`, as `get_xml` returns it
(documents/ebutt3.py:246, 534, ebuttd.py:67: `toprettyxml` without an encoding); otherwise a `str`, as a file
is read (filesystem.py:259-260) and a websocket's payload arrives (twisted/websocket.py:234-237, 359-362), handed on
unchanged by a distributing node (node/distributing.py:26-27).  The bytes of a `str` are
the characters below 256. -/
structure Call where
  out : Out
  text : Bool
deriving DecidableEq

/-- Can be encoded as ASCII. -/
def encodes (l : Text) : Bool := l.all (fun c => decide (c.toNat < 128))

/-- One call of `emit_data` (filesystem.py:132-202) with the message counter `k`: the counter after it,
the steps on disk, and whether it raised `UnicodeEncodeError`.  The counter goes up first (:141); then the
name is put together (:142-149); then the file is opened, i.e. created or emptied (:156), and only then
the text is encoded (:157).  Without rotating buffer and without `suppress_manifest`. -/
def emitData (k : Nat) (c : Call) : Nat × List Op × Bool :=
  let k' := match c.out.num with | none => k + 1 | some _ => k
  let name := match c.out.num with | none => msgName c.out.seq k' | some n => docName c.out.seq n
  if encodes c.out.seq = false then (k', [], true)
  else if c.text && encodes c.out.data = false then (k', [.create name], true)
  else (k', opsOf ⟨name, c.out.data, lineTime c.out⟩, false)

/-- The steps of a series of calls.  An exception ends the call; the caller may go on with the next. -/
def stepsFrom : Nat → List Call → List Op
  | _, [] => []
  | k, c :: cs => (emitData k c).2.1 ++ stepsFrom (emitData k c).1 cs

/-- The run of a producer on a directory without manifest. -/
def left (files : Text → Option Text) (cs : List Call) : Disk := exec ⟨files, []⟩ (stepsFrom 0 cs)

/-! ### Specification -/

/-- Only ASCII characters. -/
def Plain (l : Text) : Prop := ∀ c ∈ l, c.toNat < 128

instance (l : Text) : Decidable (Plain l) := inferInstanceAs (Decidable (∀ c ∈ l, c.toNat < 128))

/-- The content can be written: it is bytes, or text of ASCII characters only. -/
def Writable (c : Call) : Prop := c.text = true → Plain c.out.data

instance (c : Call) : Decidable (Writable c) := inferInstanceAs (Decidable (c.text = true → Plain c.out.data))

/-! ### Proofs -/

theorem encodes_iff (l : Text) : encodes l = true ↔ Plain l := by simp [encodes, Plain]

/-- What a call that cannot be written amounts to: an empty document without availability time. -/
def blank (c : Call) : Out := if Writable c then c.out else { c.out with data := [], avail := none }

theorem blank_seq (c : Call) : (blank c).seq = c.out.seq := by unfold blank; split <;> rfl
theorem blank_num (c : Call) : (blank c).num = c.out.num := by unfold blank; split <;> rfl

theorem emitData_blank (k : Nat) (c : Call) (hs : Plain c.out.seq) :
    (emitData k c).2.1 = opsOf ⟨match c.out.num with
        | none => msgName c.out.seq (k + 1) | some n => docName c.out.seq n, (blank c).data, lineTime (blank c)⟩ ∧
    (emitData k c).1 = match c.out.num with | none => k + 1 | some _ => k := by
  have h1 : ¬ encodes c.out.seq = false := by rw [(encodes_iff _).2 hs]; simp
  unfold emitData blank
  simp only [h1]
  by_cases hw : Writable c
  · have h2 : ¬ (c.text && encodes c.out.data = false) = true := by
      intro h
      simp only [Bool.and_eq_true, decide_eq_true_eq] at h
      have := (encodes_iff _).2 (hw h.1)
      rw [this] at h
      exact absurd h.2 (by simp)
    rw [if_neg h2, if_pos hw]
    constructor
    · cases c.out.num <;> rfl
    · cases c.out.num <;> rfl
  · have h2 : (c.text && encodes c.out.data = false) = true := by
      unfold Writable at hw
      simp only [Bool.and_eq_true, decide_eq_true_eq]
      by_cases ht : c.text = true
      · refine ⟨ht, ?_⟩
        by_cases he : encodes c.out.data = true
        · exact absurd (fun _ => (encodes_iff _).1 he) hw
        · simpa using he
      · exact absurd (fun h => absurd h ht) hw
    rw [if_pos h2, if_neg hw]
    constructor
    · cases c.out.num <;> simp [opsOf, lineTime]
    · rfl

theorem stepsFrom_blank : ∀ (cs : List Call) (k : Nat), (∀ c ∈ cs, Plain c.out.seq) →
    stepsFrom k cs = opsAll (emissions k (cs.map blank)) := by
  intro cs
  induction cs with
  | nil => intro k _; rfl
  | cons c cs ih =>
    intro k h
    obtain ⟨h1, h2⟩ := emitData_blank k c (h c (by simp))
    rw [stepsFrom, h1, h2, ih _ (fun c hc => h c (by simp [hc])), List.map_cons, emissions, blank_num, blank_seq]
    cases c.out.num <;> simp [opsAll]

theorem blank_handed (c : Call) : handed (blank c) = if Writable c then handed c.out else [] := by
  unfold blank; split <;> rfl

theorem blanks_handed (cs : List Call) :
    (cs.map blank).flatMap handed = (cs.filter (fun c => decide (Writable c))).flatMap (fun c => handed c.out) := by
  induction cs with
  | nil => rfl
  | cons c cs ih =>
    rw [List.map_cons, List.flatMap_cons, ih, blank_handed, List.filter_cons]
    by_cases h : Writable c <;> simp [h]

theorem blanks_one {s : Text} {cs : List Call} (h : OneSequence s (cs.map (·.out))) :
    OneSequence s (cs.map blank) := by
  refine ⟨?_, h.comma, h.newline, ?_⟩
  · intro o ho
    obtain ⟨c, hc, rfl⟩ := List.mem_map.1 ho
    rw [blank_seq]
    exact h.seq _ (List.mem_map.2 ⟨c, hc, rfl⟩)
  · have := h.numbers
    rw [List.filterMap_map] at this ⊢
    have he : (fun o : Out => o.num) ∘ blank = (fun o : Out => o.num) ∘ (fun c : Call => c.out) := by
      funext c; exact blank_num c
    rw [he]; exact this

theorem plain_all {s : Text} {cs : List Call} (hs : Plain s) (h : OneSequence s (cs.map (·.out))) :
    ∀ c ∈ cs, Plain c.out.seq := by
  intro c hc
  rw [h.seq c.out (List.mem_map.2 ⟨c, hc, rfl⟩)]; exact hs

/-- **C113.** A call raises exactly if the identifier, or a content given as text, has a character outside
ASCII. -/
theorem C113_raises_iff (k : Nat) (c : Call) :
    (emitData k c).2.2 = true ↔ ¬ (Plain c.out.seq ∧ Writable c) := by
  unfold emitData
  by_cases hs : Plain c.out.seq
  · have h1 : ¬ encodes c.out.seq = false := by rw [(encodes_iff _).2 hs]; simp
    simp only [h1]
    by_cases hw : Writable c
    · have h2 : ¬ (c.text && encodes c.out.data = false) = true := by
        intro h
        simp only [Bool.and_eq_true, decide_eq_true_eq] at h
        have := (encodes_iff _).2 (hw h.1)
        rw [this] at h
        exact absurd h.2 (by simp)
      rw [if_neg h2]; simp [hs, hw]
    · have h2 : (c.text && encodes c.out.data = false) = true := by
        unfold Writable at hw
        simp only [Bool.and_eq_true, decide_eq_true_eq]
        by_cases ht : c.text = true
        · refine ⟨ht, ?_⟩
          by_cases he : encodes c.out.data = true
          · exact absurd (fun _ => (encodes_iff _).1 he) hw
          · simpa using he
        · exact absurd (fun h => absurd h ht) hw
      rw [if_pos h2]; simp [hs, hw]
  · have h1 : encodes c.out.seq = false := by
      by_cases he : encodes c.out.seq = true
      · exact absurd ((encodes_iff _).1 he) hs
      · simpa using he
    simp [h1, hs]

/-- **C113.** Whatever documents and messages of one sequence are given to a folder output, whose caller goes
on after exceptions, and whatever was in the folder before: a reader is handed exactly the ones that could be
written, in order, each with its content and its time to the millisecond.  The others do not disturb them. -/
theorem C113_only_writable_read_partial (s : Text) (cs : List Call) (files : Text → Option Text) (hs : Plain s)
    (h : OneSequence s (cs.map (·.out))) :
    (left files cs).read
      = some ((cs.filter (fun c => decide (Writable c))).flatMap (fun c => handed c.out)) := by
  unfold left
  rw [stepsFrom_blank cs 0 (plain_all hs h), ← blanks_handed]
  exact C44_read_back_partial s _ files (blanks_one h)

/-- **C113.** What the folder holds under the name of each document: its whole content if it could be written,
and an empty file, whatever was there before, if not. -/
theorem C113_files (s : Text) (cs : List Call) (files : Text → Option Text) (hs : Plain s)
    (h : OneSequence s (cs.map (·.out))) (c : Call) (hc : c ∈ cs) (n : Nat) (hn : c.out.num = some n) :
    (left files cs).files (docName s n) = some (if Writable c then c.out.data else []) := by
  have hone := blanks_one h
  obtain ⟨_, h2, _⟩ := exec_opsAll (emissions 0 (cs.map blank)) ⟨files, []⟩
    (emissions_nodup s _ 0 hone.seq hone.numbers)
  have hmem : ∀ (os : List Out) (k : Nat) (o : Out), o ∈ os → o.num = some n → (∀ o ∈ os, o.seq = s) →
      (⟨docName s n, o.data, lineTime o⟩ : Emission) ∈ emissions k os := by
    intro os
    induction os with
    | nil => intro k o ho; exact absurd ho (by simp)
    | cons p os ih =>
      intro k o ho hn hseq
      rcases List.mem_cons.1 ho with he | ho
      · subst he
        rw [emissions, hn]
        simp [hseq o (by simp)]
      · rw [emissions]
        cases p.num with
        | none => exact List.mem_cons_of_mem _ (ih _ o ho hn (fun o ho => hseq o (by simp [ho])))
        | some m => exact List.mem_cons_of_mem _ (ih _ o ho hn (fun o ho => hseq o (by simp [ho])))
  have h3 := h2 _ (hmem (cs.map blank) 0 (blank c) (List.mem_map.2 ⟨c, hc, rfl⟩) (by rw [blank_num]; exact hn) hone.seq)
  unfold left
  rw [stepsFrom_blank cs 0 (plain_all hs h), h3]
  unfold blank
  split <;> rfl

/-- **C113.** Wherever the producer is stopped, exceptions or not, the complete lines of the manifest are those of
the documents that could be written among a first part of those given to it, and the files hold them whole. -/
theorem C113_crash (s : Text) (cs : List Call) (files : Text → Option Text) (hs : Plain s)
    (h : OneSequence s (cs.map (·.out))) (ops : List Op) (hcut : ops <+: stepsFrom 0 cs) :
    ∃ cs1 cs2, cs = cs1 ++ cs2 ∧
      readAll (exec ⟨files, []⟩ ops).files (readLines (completePart (exec ⟨files, []⟩ ops).manifest))
        = some ((cs1.filter (fun c => decide (Writable c))).flatMap (fun c => handed c.out)) := by
  rw [stepsFrom_blank cs 0 (plain_all hs h)] at hcut
  obtain ⟨os1, os2, he, hr⟩ := C45_crash s _ files (blanks_one h) ops hcut
  obtain ⟨cs1, cs2, hcs, h1, _⟩ := List.map_eq_append_iff.1 he
  refine ⟨cs1, cs2, hcs, ?_⟩
  rw [hr, ← h1, blanks_handed]

/-- **C113.** A sequence whose identifier has a character outside ASCII is never written at all. -/
theorem C113_identifier (s : Text) (cs : List Call) (d : Disk) (k : Nat) (hs : ¬ Plain s)
    (h : ∀ c ∈ cs, c.out.seq = s) :
    exec d (stepsFrom k cs) = d ∧ ∀ c ∈ cs, ∀ j, (emitData j c).2.2 = true := by
  have h1 : encodes s = false := by
    by_cases he : encodes s = true
    · exact absurd ((encodes_iff _).1 he) hs
    · simpa using he
  have h2 : stepsFrom k cs = [] := by
    induction cs generalizing k with
    | nil => rfl
    | cons c cs ih =>
      have hc := h c (by simp)
      have : (emitData k c).2.1 = [] := by unfold emitData; simp [hc, h1]
      rw [stepsFrom, this, ih _ (fun c hc => h c (by simp [hc]))]; rfl
  refine ⟨by rw [h2]; rfl, ?_⟩
  intro c hc j
  rw [C113_raises_iff, h c hc]
  exact fun hp => hs hp.1

/-- Texts in ASCII only are written as in `produced`: the statements of C44 and C45 are about this program. -/
theorem C113_plain_as_before (cs : List Call) (files : Text → Option Text) (h : ∀ c ∈ cs, Plain c.out.seq ∧ Writable c) :
    left files cs = produced files (cs.map (·.out)) := by
  unfold left produced
  rw [stepsFrom_blank cs 0 (fun c hc => (h c hc).1)]
  have : cs.map blank = cs.map (·.out) := List.map_congr_left (fun c hc => by unfold blank; rw [if_pos (h c hc).2])
  rw [this]

/-! ### Witnesses -/

/-- Three documents, the second with an accent, and a message. -/
def exCalls : List Call :=
  [⟨⟨"s".toList, some 1, "one".toList, some 1000000, none⟩, true⟩,
   ⟨⟨"s".toList, some 2, ['d', 'e', 'u', 'x', ' ', 'é'], some 2000000, none⟩, true⟩,
   ⟨⟨"s".toList, none, "msg".toList, some 2500000, none⟩, true⟩,
   ⟨⟨"s".toList, some 3, ['Ã', '©'], some 3000000, none⟩, false⟩]

/-- The hypotheses are met by a series with documents of all kinds. -/
example : Plain "s".toList ∧ OneSequence "s".toList (exCalls.map (·.out)) ∧
    exCalls.map (fun c => decide (Writable c)) = [true, false, true, true] :=
  ⟨by decide +kernel, ⟨by decide +kernel, by decide +kernel, by decide +kernel, by decide +kernel⟩, by decide +kernel⟩

/-- A cut in the middle of the message, after the call that raised. -/
example : (stepsFrom 0 exCalls).take 29 <+: stepsFrom 0 exCalls ∧
    (exec Disk.empty ((stepsFrom 0 exCalls).take 29)).files "s_msg_1.xml".toList = some "ms".toList ∧
    (exec Disk.empty ((stepsFrom 0 exCalls).take 29)).manifest = "00:00:01.000,s_1.xml\n".toList :=
  ⟨List.take_prefix _ _, by decide +kernel, by decide +kernel⟩

example : ¬ Plain ['é'] := by decide +kernel

/-- C44 is false of texts with other than ASCII characters: the document is lost to the reader, and an empty
file is left in its place. -/
theorem C113_false_not_ascii :
    (left (fun _ => none) exCalls).read
      = some [(1000000, "one".toList), (2500000, "msg".toList), (3000000, ['Ã', '©'])] ∧
    (left (fun _ => none) exCalls).files "s_2.xml".toList = some [] ∧
    (left (fun _ => none) exCalls).manifest
      = "00:00:01.000,s_1.xml\n00:00:02.500,s_msg_1.xml\n00:00:03.000,s_3.xml\n".toList := by
  decide +kernel

/-- A document that had been written is destroyed when its number is written again with other than ASCII text:
the manifest still lists it, and the reader skips the empty file. -/
theorem C113_false_overwritten :
    let cs : List Call := [⟨⟨"s".toList, some 1, "one".toList, some 0, none⟩, true⟩,
      ⟨⟨"s".toList, some 1, ['é'], some 1000000, none⟩, true⟩]
    (left (fun _ => none) (cs.take 1)).read = some [(0, "one".toList)] ∧
    (left (fun _ => none) cs).read = some [] ∧
    (left (fun _ => none) cs).manifest = "00:00:00.000,s_1.xml\n".toList := by
  decide +kernel

end Verif.Fs.Encoding
