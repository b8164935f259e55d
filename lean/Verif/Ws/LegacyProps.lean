/-
C87: the server behind the user input page hands every message to its node and answers its sender.
C88: a client of the legacy protocol gets exactly what is broadcast on the channels it is subscribed to.
-/
import Verif.Ws.Legacy

namespace Verif.Ws.Legacy

/-! ### Specification of C87 -/

/-- The messages of a course of events with their senders, in order of arrival. -/
def arrivals {P : Type} : List (UEv P) → List (Nat × P)
  | [] => []
  | .message c p :: evs => (c, p) :: arrivals evs
  | _ :: evs => arrivals evs

/-- The node alone, without any server: what becomes of each payload. -/
def alone {σ P : Type} (take : σ → P → σ × Option Failure) : σ → List P → List (Option Failure)
  | _, [] => []
  | s, p :: ps => (take s p).2 :: alone take (take s p).1 ps

/-- The node alone: its state after all of them. -/
def aloneEnd {σ P : Type} (take : σ → P → σ × Option Failure) : σ → List P → σ
  | s, [] => s
  | s, p :: ps => aloneEnd take (take s p).1 ps

/-- The answer an outcome calls for. -/
def answer : Option Failure → Reply
  | none => .success
  | some f => .error ("ERROR: ".toList ++ f.text)

/-- The outcome can be told: it is a success, or the text of the exception is ASCII. -/
def Tellable : Option Failure → Prop
  | none => True
  | some f => ∀ c ∈ f.text, c.toNat < 128

instance (o : Option Failure) : Decidable (Tellable o) := by
  cases o <;> simp only [Tellable] <;> infer_instance

theorem tellable_some (f : Failure) : asciiOnly f.text = true ↔ Tellable (some f) := by
  simp [asciiOnly, Tellable]

/-- Who is answered what: senders beside outcomes. -/
def answers (senders : List Nat) (outcomes : List (Option Failure)) : List (Nat × Reply) :=
  ((senders.zip outcomes).filter (fun x => decide (Tellable x.2))).map (fun x => (x.1, answer x.2))

section C87
variable {σ P : Type} (take : σ → P → σ × Option Failure)

theorem urun_gen (evs : List (UEv P)) : ∀ s : UState σ,
    (urun take s evs).node = aloneEnd take s.node ((arrivals evs).map Prod.snd) ∧
    (urun take s evs).sent.reverse =
      s.sent.reverse ++ answers ((arrivals evs).map Prod.fst) (alone take s.node ((arrivals evs).map Prod.snd)) := by
  induction evs with
  | nil => intro s; simp [urun, arrivals, aloneEnd, alone, answers]
  | cons e evs ih =>
    intro s
    have hstep : urun take s (e :: evs) = urun take (ustep take s e) evs := rfl
    rw [hstep]
    obtain ⟨h1, h2⟩ := ih (ustep take s e)
    rw [h1, h2]
    cases e with
    | opened c => simp only [ustep]; split <;> simp [arrivals]
    | lost c => simp [ustep, arrivals]
    | message c p =>
      cases ho : (take s.node p).2 with
      | none =>
        have ht : Tellable none := trivial
        have ha : answer none = .success := rfl
        simp [ustep, arrivals, aloneEnd, alone, answers, ho, ht, ha]
      | some f =>
        by_cases ht : Tellable (some f)
        · have ha := (tellable_some f).2 ht
          simp [ustep, arrivals, aloneEnd, alone, answers, ho, ht, ha, answer]
        · have ha : ¬ asciiOnly f.text = true := fun h => ht ((tellable_some f).1 h)
          simp [ustep, arrivals, aloneEnd, alone, answers, ho, ht, ha]

/-- C87.  Whatever connections open, send and close in whatever order: the node takes every payload once, in the order of
arrival, as if there were no server, and every message is answered to its sender and nobody else, in that order, with
`SUCCESS` if the node took it and with the text of the exception if it raised.
Partial: messages whose exception has other than ASCII characters in its text are not answered. -/
theorem C87_answered_partial (n : σ) (evs : List (UEv P)) :
    (urun take { node := n } evs).node = aloneEnd take n ((arrivals evs).map Prod.snd) ∧
    (urun take { node := n } evs).sent.reverse =
      answers ((arrivals evs).map Prod.fst) (alone take n ((arrivals evs).map Prod.snd)) := by
  simpa using urun_gen take evs { node := n }

theorem alone_length (ps : List P) : ∀ n : σ, (alone take n ps).length = ps.length := by
  induction ps with
  | nil => intro n; rfl
  | cons p ps ih => intro n; simp [alone, ih]

/-- C87.  If the texts of the node's exceptions are ASCII, every message has its answer: the k-th answer goes to the k-th
sender and tells the k-th outcome. -/
theorem C87_every_message_partial (hascii : ∀ s p, Tellable (take s p).2) (n : σ) (evs : List (UEv P)) :
    (urun take { node := n } evs).sent.reverse.map Prod.fst = (arrivals evs).map Prod.fst ∧
    (urun take { node := n } evs).sent.reverse.map Prod.snd = (alone take n ((arrivals evs).map Prod.snd)).map answer := by
  have hall : ∀ (ps : List P) (n : σ), ∀ o ∈ alone take n ps, Tellable o := by
    intro ps
    induction ps with
    | nil => intro n o ho; simp [alone] at ho
    | cons p ps ih =>
      intro n o ho
      simp only [alone, List.mem_cons] at ho
      rcases ho with ho | ho
      · rw [ho]; exact hascii n p
      · exact ih _ _ ho
  have hlen := alone_length take ((arrivals evs).map Prod.snd) n
  rw [(C87_answered_partial take n evs).2]
  have hf : answers ((arrivals evs).map Prod.fst) (alone take n ((arrivals evs).map Prod.snd)) =
      (((arrivals evs).map Prod.fst).zip (alone take n ((arrivals evs).map Prod.snd))).map (fun x => (x.1, answer x.2)) := by
    unfold answers
    rw [List.filter_eq_self.2]
    intro x hx
    exact decide_eq_true (hall _ _ _ (List.of_mem_zip hx).2)
  rw [hf]
  constructor
  · rw [List.map_map]
    have : (Prod.fst ∘ fun x : Nat × Option Failure => (x.1, answer x.2)) = Prod.fst := rfl
    rw [this]
    exact List.map_fst_zip (by simp [hlen])
  · rw [List.map_map]
    have : (Prod.snd ∘ fun x : Nat × Option Failure => (x.1, answer x.2)) = answer ∘ Prod.snd := rfl
    rw [this, ← List.map_map, List.map_snd_zip (by simp [hlen])]

/-- C87.  Nobody is sent anything who sent nothing. -/
theorem C87_only_senders (n : σ) (evs : List (UEv P)) (c : Nat) (r : Reply)
    (h : (c, r) ∈ (urun take { node := n } evs).sent) : ∃ p, UEv.message c p ∈ evs := by
  have hm : ∀ evs : List (UEv P), ∀ c ∈ (arrivals evs).map Prod.fst, ∃ p, UEv.message c p ∈ evs := by
    intro evs
    induction evs with
    | nil => intro c hc; simp [arrivals] at hc
    | cons e evs ih =>
      intro c hc
      cases e with
      | message d p =>
        simp only [arrivals, List.map_cons, List.mem_cons] at hc
        rcases hc with hc | hc
        · rw [hc]; exact ⟨p, by simp⟩
        · obtain ⟨q, hq⟩ := ih c hc; exact ⟨q, by simp [hq]⟩
      | opened d => obtain ⟨q, hq⟩ := ih c hc; exact ⟨q, by simp [hq]⟩
      | lost d => obtain ⟨q, hq⟩ := ih c hc; exact ⟨q, by simp [hq]⟩
  have h' : (c, r) ∈ (urun take { node := n } evs).sent.reverse := by simpa using h
  rw [(C87_answered_partial take n evs).2] at h'
  unfold answers at h'
  obtain ⟨x, hx, hxe⟩ := List.mem_map.1 h'
  have hz := (List.of_mem_zip (List.mem_filter.1 hx).1).1
  simp only [Prod.mk.injEq] at hxe
  rw [hxe.1] at hz
  exact hm evs c hz

end C87

/-- A node that counts, and refuses empty payloads. -/
def exTake : Nat → List Char → Nat × Option Failure := fun n p =>
  if p = [] then (n, some ⟨"empty".toList⟩) else (n + 1, none)

/-- Two connections, one of which sends an empty payload in between, and one that closes. -/
def exUEvs : List (UEv (List Char)) :=
  [.opened 1, .opened 2, .message 1 ['a'], .message 2 [], .lost 1, .message 2 ['b']]

example : (urun exTake { node := 0 } exUEvs).node = 2 ∧
    (urun exTake { node := 0 } exUEvs).sent.reverse = [(1, .success), (2, .error "ERROR: empty".toList), (2, .success)] := by
  decide +kernel

example : ∀ s p, Tellable (exTake s p).2 := by
  intro s p
  unfold exTake
  split
  · show Tellable (some _); decide
  · exact trivial

/-- C87 is false of exceptions with other than ASCII characters: `str(e)` raises inside the handler, and the page never hears
of its message (websocket.py:24-30). -/
theorem C87_false_not_ascii :
    ∃ (take : Unit → Unit → Unit × Option Failure) (evs : List (UEv Unit)),
      (arrivals evs).length = 1 ∧ (urun take { node := () } evs).sent = [] ∧ (urun take { node := () } evs).raised = [1] :=
  ⟨fun _ _ => ((), some ⟨['é']⟩), [.opened 1, .message 1 ()], by decide +kernel, by decide +kernel, by decide +kernel⟩

/-- C87.  Closed connections stay among the server's clients for ever: the list has every connection ever opened
(`connectionLost` does not unregister, websocket.py:32-33). -/
theorem C87_clients_never_leave {σ P : Type} (take : σ → P → σ × Option Failure) (n : σ) (evs : List (UEv P)) (c : Nat) :
    c ∈ (urun take { node := n } evs).clients ↔ UEv.opened c ∈ evs := by
  have gen : ∀ (evs : List (UEv P)) (s : UState σ),
      c ∈ (urun take s evs).clients ↔ c ∈ s.clients ∨ UEv.opened c ∈ evs := by
    intro evs
    induction evs with
    | nil => intro s; simp [urun]
    | cons e evs ih =>
      intro s
      have hstep : urun take s (e :: evs) = urun take (ustep take s e) evs := rfl
      rw [hstep, ih]
      cases e with
      | opened d =>
        simp only [ustep, List.contains_eq_mem, decide_eq_true_eq]
        split
        · rename_i hd
          simp only [List.mem_cons, UEv.opened.injEq]
          constructor
          · rintro (h | h) <;> simp [h]
          · rintro (h | h | h)
            · exact Or.inl h
            · rw [h]; exact Or.inl hd
            · exact Or.inr h
        · simp [or_assoc]
      | message d p =>
        have : (ustep take s (.message d p)).clients = s.clients := by
          simp only [ustep]; split
          · rfl
          · split <;> rfl
        rw [this]; simp
      | lost d => simp [ustep]
  simpa using gen evs { node := n }

/-! ### Specification of C88 -/

/-- The message asks for the channel: it subscribes to it, and does not unsubscribe from it in the same breath. -/
def Asks (ch : List Char) : CMsg → Prop
  | .obj sub unsub => sub = some (.text ch) ∧ unsub ≠ some (.text ch)
  | .other => False

/-- The server reads on after the first key: it raises at lists, objects and other than ASCII text. -/
def Readable : Option Chan → Prop
  | none => True
  | some (.text s) => ∀ c ∈ s, c.toNat < 128
  | some (.other _) => True
  | some .unhashable => False

/-- The message leaves the channel, and is read as far as that. -/
def Leaves (ch : List Char) : CMsg → Prop
  | .obj sub unsub => unsub = some (.text ch) ∧ Readable sub
  | .other => False

/-- The connection is open after these events. -/
def Open (evs : List LEv) (c : Nat) : Prop :=
  ∃ pre post, evs = pre ++ .opened c :: post ∧ .lost c ∉ post

/-- The connection is open, and since it was opened it asked for the channel and has not left it. -/
def Listening (evs : List LEv) (c : Nat) (ch : List Char) : Prop :=
  ∃ pre m post, evs = pre ++ .message c m :: post ∧ Open pre c ∧ Asks ch m ∧
    .lost c ∉ post ∧ .opened c ∉ post ∧ ∀ m', .message c m' ∈ post → ¬ Leaves ch m'

/-- ASCII text. -/
def Ascii (s : List Char) : Prop := ∀ c ∈ s, c.toNat < 128

/-- Every broadcast of a course of events with what happened before it. -/
def broadcasts : List LEv → List LEv → List (List LEv × List Char × List Char)
  | _, [] => []
  | past, .broadcast ch msg :: evs => (past, ch, msg) :: broadcasts (past ++ [.broadcast ch msg]) evs
  | past, e :: evs => broadcasts (past ++ [e]) evs

/-- What a connection was sent, in order. -/
def sentTo (s : LState) (c : Nat) : List (List Char) := (s.sent.reverse.filter (fun x => decide (x.1 = c))).map Prod.snd

/-! ### Proofs -/

/-- The channels of a client, if it is registered. -/
def chansOf (cl : List (Nat × List Chan)) (c : Nat) : Option (List Chan) :=
  match cl with
  | [] => none
  | x :: xs => if x.1 = c then some x.2 else chansOf xs c

theorem chansOf_none (cl : List (Nat × List Chan)) (c : Nat) : chansOf cl c = none ↔ c ∉ cl.map Prod.fst := by
  induction cl with
  | nil => simp [chansOf]
  | cons x xs ih =>
    simp only [chansOf, List.map_cons, List.mem_cons, not_or]
    split
    · rename_i h; simp [h]
    · rename_i h; rw [ih]; simp [Ne.symm h, eq_comm]

theorem chansOf_add (cl : List (Nat × List Chan)) (d c : Nat) :
    chansOf (addClient cl d) c = if d = c then some [] else chansOf cl c := by
  induction cl with
  | nil => simp [addClient, chansOf]
  | cons x xs ih =>
    simp only [addClient]
    by_cases hx : x.1 = d
    · by_cases hc : d = c
      · simp [hx, chansOf, hc]
      · have hxc : ¬ x.1 = c := by rw [hx]; exact hc
        simp [hx, chansOf, hc]
    · by_cases hc : d = c
      · have hxc : ¬ x.1 = c := by rw [← hc]; exact hx
        simp only [hx, if_false, chansOf, hxc, ih]
      · simp [hx, chansOf, ih, hc]

theorem add_fst (cl : List (Nat × List Chan)) (d : Nat) :
    (addClient cl d).map Prod.fst = if d ∈ cl.map Prod.fst then cl.map Prod.fst else cl.map Prod.fst ++ [d] := by
  induction cl with
  | nil => simp [addClient]
  | cons x xs ih =>
    simp only [addClient]
    by_cases hx : x.1 = d
    · simp [hx]
    · have hx' : ¬ d = x.1 := fun h => hx h.symm
      simp only [hx, if_false, List.map_cons, List.mem_cons, hx', false_or, ih]
      split <;> simp

theorem chansOf_map (cl : List (Nat × List Chan)) (d c : Nat) (f : List Chan → List Chan) :
    chansOf (cl.map (fun x => if x.1 = d then (x.1, f x.2) else x)) c =
      if d = c then (chansOf cl c).map f else chansOf cl c := by
  induction cl with
  | nil => simp [chansOf]
  | cons x xs ih =>
    simp only [List.map_cons, chansOf]
    by_cases hx : x.1 = d
    · by_cases hc : d = c
      · simp [hx, hc]
      · have hxc : ¬ x.1 = c := by rw [hx]; exact hc
        simp only [hx, if_true, hc, if_false]
        simp only [ih, hc, if_false]
    · by_cases hc : d = c
      · have hxc : ¬ x.1 = c := by rw [← hc]; exact hx
        simp only [hx, if_false, hxc, ih]
      · simp only [hx, if_false, ih, hc]

theorem chansOf_filter (cl : List (Nat × List Chan)) (d c : Nat) :
    chansOf (cl.filter (fun x => decide (x.1 ≠ d))) c = if d = c then none else chansOf cl c := by
  induction cl with
  | nil => simp [chansOf]
  | cons x xs ih =>
    by_cases hx : x.1 = d
    · rw [List.filter_cons_of_neg (by simp [hx]), ih]
      by_cases hc : d = c
      · simp [hc]
      · have hxc : ¬ x.1 = c := by rw [hx]; exact hc
        simp [hc, chansOf, hxc]
    · rw [List.filter_cons_of_pos (by simp [hx])]
      simp only [chansOf, ih]
      by_cases hc : d = c
      · have hxc : ¬ x.1 = c := by rw [← hc]; exact hx
        simp [hxc, hc]
      · simp [hc]

/-- Every connection is registered at most once. -/
theorem lstep_nodup (s : LState) (e : LEv) (h : (s.clients.map Prod.fst).Nodup) : ((lstep s e).clients.map Prod.fst).Nodup := by
  cases e with
  | opened d =>
    simp only [lstep, add_fst]
    split
    · exact h
    · rename_i hd
      refine List.nodup_append.2 ⟨h, by simp, ?_⟩
      intro a ha b hb
      simp only [List.mem_singleton] at hb
      rw [hb]; intro hab; rw [hab] at ha; exact hd ha
  | message d m =>
    have : (s.clients.map (fun x => if x.1 = d then (x.1, onCMsg x.2 m) else x)).map Prod.fst = s.clients.map Prod.fst := by
      rw [List.map_map]
      apply List.map_congr_left
      intro x _
      simp only [Function.comp]
      split <;> rfl
    simp only [lstep, this]; exact h
  | binary d => exact h
  | lost d =>
    simp only [lstep]
    exact (List.filter_sublist.map Prod.fst).nodup h
  | broadcast ch msg => exact h

theorem lrun_snoc (s : LState) (evs : List LEv) (e : LEv) : lrun s (evs ++ [e]) = lstep (lrun s evs) e := by
  simp [lrun]

theorem lrun_nodup (evs : List LEv) : ∀ s : LState, (s.clients.map Prod.fst).Nodup → ((lrun s evs).clients.map Prod.fst).Nodup := by
  induction evs with
  | nil => intro s h; exact h
  | cons e evs ih => intro s h; exact ih _ (lstep_nodup s e h)

/-- What an event does to the channels of one client. -/
def chanStep (c : Nat) (o : Option (List Chan)) : LEv → Option (List Chan)
  | .opened d => if d = c then some [] else o
  | .message d m => if d = c then o.map (fun cs => onCMsg cs m) else o
  | .binary _ => o
  | .lost d => if d = c then none else o
  | .broadcast _ _ => o

theorem chansOf_step (s : LState) (e : LEv) (c : Nat) : chansOf (lstep s e).clients c = chanStep c (chansOf s.clients c) e := by
  cases e with
  | opened d => exact chansOf_add _ _ _
  | message d m => exact chansOf_map s.clients d c (fun cs => onCMsg cs m)
  | binary d => rfl
  | lost d => exact chansOf_filter _ _ _
  | broadcast ch msg => rfl

/-- The history split at its last event, for `Open`. -/
theorem open_nil (c : Nat) : ¬ Open [] c := by
  rintro ⟨pre, post, h, _⟩
  simp at h

theorem snoc_cases {α : Type} {evs : List α} {e x : α} {pre post : List α} (h : evs ++ [e] = pre ++ x :: post) :
    (post = [] ∧ e = x ∧ evs = pre) ∨ ∃ post', post = post' ++ [e] ∧ evs = pre ++ x :: post' := by
  rcases List.eq_nil_or_concat post with hp | ⟨post', y, hp⟩
  · left
    rw [hp] at h
    have := List.append_inj' h rfl
    exact ⟨hp, by simpa using this.2, this.1⟩
  · right
    rw [hp] at h
    have h' : evs ++ [e] = (pre ++ x :: post') ++ [y] := by simpa using h
    have := List.append_inj' h' rfl
    have hy : e = y := by simpa using this.2
    exact ⟨post', by rw [hy]; simpa using hp, this.1⟩

theorem open_snoc (evs : List LEv) (e : LEv) (c : Nat) :
    Open (evs ++ [e]) c ↔ e = .opened c ∨ (Open evs c ∧ e ≠ .lost c) := by
  constructor
  · rintro ⟨pre, post, h, hl⟩
    rcases snoc_cases h with ⟨_, he, _⟩ | ⟨post', hp, hev⟩
    · exact Or.inl he
    · right
      rw [hp] at hl
      simp only [List.mem_append, List.mem_singleton, not_or] at hl
      exact ⟨⟨pre, post', hev, hl.1⟩, fun h => hl.2 h.symm⟩
  · rintro (h | ⟨⟨pre, post, h, hl⟩, hne⟩)
    · exact ⟨evs, [], by rw [h], by simp⟩
    · refine ⟨pre, post ++ [e], by rw [h]; simp, ?_⟩
      simp only [List.mem_append, List.mem_singleton, not_or]
      exact ⟨hl, fun h => hne h.symm⟩

theorem listening_open {evs : List LEv} {c : Nat} {ch : List Char} (h : Listening evs c ch) : Open evs c := by
  obtain ⟨pre, m, post, hev, ⟨a, b, hab, hb⟩, _, hl, _, _⟩ := h
  refine ⟨a, b ++ .message c m :: post, by rw [hev, hab]; simp, ?_⟩
  simp [hb, hl]

theorem listening_snoc (evs : List LEv) (e : LEv) (c : Nat) (ch : List Char) :
    Listening (evs ++ [e]) c ch ↔
      (∃ m, e = .message c m ∧ Open evs c ∧ Asks ch m) ∨
      (Listening evs c ch ∧ e ≠ .lost c ∧ e ≠ .opened c ∧ ∀ m, e = .message c m → ¬ Leaves ch m) := by
  constructor
  · rintro ⟨pre, m, post, h, ho, ha, hl, hop, hlv⟩
    rcases snoc_cases h with ⟨_, he, hev⟩ | ⟨post', hp, hev⟩
    · exact Or.inl ⟨m, he, by rw [hev]; exact ho, ha⟩
    · right
      rw [hp] at hl hop hlv
      simp only [List.mem_append, List.mem_singleton, not_or] at hl hop hlv
      exact ⟨⟨pre, m, post', hev, ho, ha, hl.1, hop.1, fun m' hm' => hlv m' (Or.inl hm')⟩, fun h => hl.2 h.symm,
        fun h => hop.2 h.symm, fun m' hm' => hlv m' (Or.inr hm'.symm)⟩
  · rintro (⟨m, he, ho, ha⟩ | ⟨⟨pre, m, post, h, ho, ha, hl, hop, hlv⟩, h1, h2, h3⟩)
    · exact ⟨evs, m, [], by rw [he], ho, ha, by simp, by simp, by simp⟩
    · refine ⟨pre, m, post ++ [e], by rw [h]; simp, ho, ha, ?_, ?_, ?_⟩
      · simp only [List.mem_append, List.mem_singleton, not_or]; exact ⟨hl, fun h => h1 h.symm⟩
      · simp only [List.mem_append, List.mem_singleton, not_or]; exact ⟨hop, fun h => h2 h.symm⟩
      · intro m' hm'
        simp only [List.mem_append, List.mem_singleton] at hm'
        rcases hm' with hm' | hm'
        · exact hlv m' hm'
        · exact h3 m' hm'.symm

theorem loggable_text (ch : List Char) : (Chan.text ch).loggable = true ↔ Ascii ch := by
  simp [Chan.loggable, asciiOnly, Ascii]

/-- What a message does to membership of one channel. -/
theorem mem_subscribe (cs : List Chan) (sub : Option Chan) (ch : List Char) :
    (∀ out, subscribe cs sub = some out → (Chan.text ch ∈ out ↔ Chan.text ch ∈ cs ∨ sub = some (.text ch))) ∧
    (subscribe cs sub = none ↔ ¬ Readable sub) := by
  cases sub with
  | none => simp [subscribe, Readable]
  | some x =>
    cases x with
    | unhashable => simp [subscribe, Readable]
    | other n =>
      refine ⟨?_, by simp [subscribe, Readable, Chan.loggable]⟩
      intro out h
      simp only [subscribe, Chan.loggable, if_true, Option.some.injEq] at h
      rw [← h]
      split <;> simp
    | text t =>
      by_cases ht : Ascii t
      · have hl := (loggable_text t).2 ht
        refine ⟨?_, by simpa [subscribe, Readable, hl, Ascii] using ht⟩
        intro out h
        simp only [subscribe, hl, if_true, Option.some.injEq] at h
        rw [← h]
        split
        · rename_i hc
          simp only [List.contains_eq_mem, decide_eq_true_eq] at hc
          constructor
          · exact Or.inl
          · rintro (h | h)
            · exact h
            · simp only [Option.some.injEq, Chan.text.injEq] at h
              rw [← h]; exact hc
        · simp [eq_comm]
      · have hl : ¬ (Chan.text t).loggable = true := fun h => ht ((loggable_text t).1 h)
        refine ⟨?_, ?_⟩
        · intro out h; simp [subscribe, hl] at h
        · simpa [subscribe, Readable, hl, Ascii] using ht

theorem mem_unsubscribe (cs : List Chan) (unsub : Option Chan) (ch : List Char) (hch : Ascii ch) :
    Chan.text ch ∈ unsubscribe cs unsub ↔ Chan.text ch ∈ cs ∧ unsub ≠ some (.text ch) := by
  cases unsub with
  | none => simp [unsubscribe]
  | some x =>
    simp only [unsubscribe]
    by_cases hx : x = .text ch
    · have hl := (loggable_text ch).2 hch
      simp [hx, hl]
    · have hx' : ¬ Chan.text ch = x := fun h => hx h.symm
      split <;> simp [hx, hx']

/-- One message and one ASCII channel. -/
theorem mem_onCMsg (cs : List Chan) (m : CMsg) (ch : List Char) (hch : Ascii ch) :
    Chan.text ch ∈ onCMsg cs m ↔ Asks ch m ∨ (Chan.text ch ∈ cs ∧ ¬ Leaves ch m) := by
  cases m with
  | other => simp [onCMsg, Asks, Leaves]
  | obj sub unsub =>
    obtain ⟨h1, h2⟩ := mem_subscribe cs sub ch
    simp only [onCMsg, Asks, Leaves]
    cases hs : subscribe cs sub with
    | none =>
      have hr := h2.1 hs
      simp only
      constructor
      · intro h; exact Or.inr ⟨h, fun hh => hr hh.2⟩
      · rintro (⟨ha, _⟩ | ⟨h, _⟩)
        · exfalso; apply hr; rw [ha]; exact hch
        · exact h
    | some out =>
      have hr : Readable sub := Classical.byContradiction (fun hn => by rw [h2.2 hn] at hs; exact absurd hs (by simp))
      simp only
      rw [mem_unsubscribe _ _ _ hch, h1 out hs]
      constructor
      · rintro ⟨h | h, hu⟩
        · exact Or.inr ⟨h, fun hh => hu hh.1⟩
        · exact Or.inl ⟨h, hu⟩
      · rintro (⟨h, hu⟩ | ⟨h, hn⟩)
        · exact ⟨Or.inr h, hu⟩
        · exact ⟨Or.inl h, fun hu => hn ⟨hu, hr⟩⟩

/-- A channel with other characters is never in a set. -/
theorem not_mem_onCMsg (cs : List Chan) (m : CMsg) (ch : List Char) (hch : ¬ Ascii ch) (h : Chan.text ch ∉ cs) :
    Chan.text ch ∉ onCMsg cs m := by
  cases m with
  | other => exact h
  | obj sub unsub =>
    obtain ⟨h1, h2⟩ := mem_subscribe cs sub ch
    simp only [onCMsg]
    cases hs : subscribe cs sub with
    | none => exact h
    | some out =>
      have hne : sub ≠ some (.text ch) := by
        intro he
        have : subscribe cs sub = none := h2.2 (by rw [he]; exact hch)
        rw [this] at hs; exact absurd hs (by simp)
      have hout : Chan.text ch ∉ out := by
        rw [h1 out hs]; rintro (hh | hh)
        · exact h hh
        · exact hne hh
      intro hmem
      apply hout
      cases unsub with
      | none => exact hmem
      | some x =>
        simp only [unsubscribe] at hmem
        split at hmem
        · exact (List.mem_filter.1 hmem).1
        · exact hmem

/-- The server's state, told by the history alone. -/
theorem chans_history (evs : List LEv) (c : Nat) :
    ((chansOf (lrun {} evs).clients c).isSome ↔ Open evs c) ∧
    (∀ ch, (∃ cs, chansOf (lrun {} evs).clients c = some cs ∧ Chan.text ch ∈ cs) ↔ (Listening evs c ch ∧ Ascii ch)) := by
  have key : ∀ (n : Nat) (evs : List LEv), evs.length = n →
      (((chansOf (lrun {} evs).clients c).isSome ↔ Open evs c) ∧
      (∀ ch, (∃ cs, chansOf (lrun {} evs).clients c = some cs ∧ Chan.text ch ∈ cs) ↔ (Listening evs c ch ∧ Ascii ch))) := by
    intro n
    induction n with
    | zero =>
      intro evs hn
      have : evs = [] := List.length_eq_zero_iff.1 hn
      rw [this]
      refine ⟨⟨fun h => by simp [lrun, chansOf] at h, fun h => absurd h (open_nil c)⟩, fun ch => ⟨?_, ?_⟩⟩
      · rintro ⟨cs, h, _⟩; simp [lrun, chansOf] at h
      · rintro ⟨h, _⟩; exact absurd (listening_open h) (open_nil c)
    | succ n ih =>
      intro evs hn
      rcases List.eq_nil_or_concat evs with h0 | ⟨evs', e, he⟩
      · rw [h0] at hn; simp at hn
      · have he' : evs = evs' ++ [e] := by simpa using he
        rw [he'] at hn ⊢
        have hlen : evs'.length = n := by simpa using hn
        obtain ⟨ho, hl⟩ := ih evs' hlen
        rw [lrun_snoc, chansOf_step]
        generalize chansOf (lrun {} evs').clients c = o at ho hl
        refine ⟨?_, fun ch => ?_⟩
        · rw [open_snoc, ← ho]
          cases e with
          | opened d => by_cases hd : d = c <;> simp [chanStep, hd]
          | message d m => by_cases hd : d = c <;> simp [chanStep, hd]
          | binary d => simp [chanStep]
          | lost d => by_cases hd : d = c <;> simp [chanStep, hd]
          | broadcast a b => simp [chanStep]
        · rw [listening_snoc]
          have hl' := hl ch
          cases e with
          | opened d =>
            by_cases hd : d = c
            · simp [chanStep, hd]
            · simp [chanStep, hd, hl']
          | binary d => simp [chanStep, hl']
          | broadcast a b => simp [chanStep, hl']
          | lost d =>
            by_cases hd : d = c
            · simp [chanStep, hd]
            · simp [chanStep, hd, hl']
          | message d m =>
            by_cases hd : d = c
            · rw [hd]
              simp only [chanStep, if_true, LEv.message.injEq, true_and]
              by_cases hch : Ascii ch
              · simp only [hch, and_true] at hl' ⊢
                constructor
                · rintro ⟨cs, h, hm⟩
                  cases o with
                  | none => simp at h
                  | some cs' =>
                    simp only [Option.map_some, Option.some.injEq] at h
                    rw [← h, mem_onCMsg _ _ _ hch] at hm
                    rcases hm with hm | ⟨hm, hn⟩
                    · exact Or.inl ⟨m, rfl, ho.1 rfl, hm⟩
                    · exact Or.inr ⟨hl'.1 ⟨cs', rfl, hm⟩, by simp, by simp, fun m' h' => by rw [← h']; exact hn⟩
                · rintro (⟨m', hm', hop, ha⟩ | ⟨hli, _, _, hn⟩)
                  · have := ho.2 hop
                    cases o with
                    | none => simp at this
                    | some cs' =>
                      refine ⟨onCMsg cs' m, rfl, ?_⟩
                      rw [mem_onCMsg _ _ _ hch, hm']
                      exact Or.inl ha
                  · obtain ⟨cs', h, hm⟩ := hl'.2 hli
                    refine ⟨onCMsg cs' m, by rw [h]; rfl, ?_⟩
                    rw [mem_onCMsg _ _ _ hch]
                    exact Or.inr ⟨hm, hn m rfl⟩
              · simp only [hch, and_false, iff_false] at hl' ⊢
                rintro ⟨cs, h, hm⟩
                cases o with
                | none => simp at h
                | some cs' =>
                  simp only [Option.map_some, Option.some.injEq] at h
                  rw [← h] at hm
                  exact not_mem_onCMsg cs' m ch hch (fun hh => hl' ⟨cs', rfl, hh⟩) hm
            · simp [chanStep, hd, hl']
  exact key evs.length evs rfl

/-- C88.  The server holds exactly the open connections. -/
theorem C88_registered_are_open (evs : List LEv) (c : Nat) : c ∈ (lrun {} evs).clients.map Prod.fst ↔ Open evs c := by
  rw [← (chans_history evs c).1]
  have := chansOf_none (lrun {} evs).clients c
  cases h : chansOf (lrun {} evs).clients c with
  | none => simp only [h, true_iff] at this; simpa using this
  | some cs => simp only [h, reduceCtorEq, false_iff, Classical.not_not] at this; simpa using this

/-- One broadcast reaches each client with the channel once. -/
theorem one_broadcast (cl : List (Nat × List Chan)) (hn : (cl.map Prod.fst).Nodup) (c : Nat) (ch msg : List Char) :
    (((cl.filter (fun x => x.2.contains (.text ch))).map (fun x => (x.1, msg))).filter (fun x => decide (x.1 = c))).map Prod.snd =
      if ∃ cs, chansOf cl c = some cs ∧ Chan.text ch ∈ cs then [msg] else [] := by
  induction cl with
  | nil => simp [chansOf]
  | cons x xs ih =>
    simp only [List.map_cons, List.nodup_cons] at hn
    have ih := ih hn.2
    by_cases hx : x.1 = c
    · have hno : chansOf xs c = none := by rw [chansOf_none, ← hx]; exact hn.1
      rw [hno] at ih
      simp only [reduceCtorEq, false_and, exists_false, if_false] at ih
      by_cases hc : Chan.text ch ∈ x.2
      · rw [List.filter_cons_of_pos (by simpa using hc)]
        simp only [List.map_cons, hx]
        rw [List.filter_cons_of_pos (by simp)]
        rw [List.map_cons, ih]
        simp [chansOf, hx, hc]
      · rw [List.filter_cons_of_neg (by simpa using hc), ih]
        simp [chansOf, hx, hc]
    · have hsame : chansOf (x :: xs) c = chansOf xs c := by simp [chansOf, hx]
      rw [hsame, ← ih]
      by_cases hc : Chan.text ch ∈ x.2
      · rw [List.filter_cons_of_pos (by simpa using hc)]
        simp only [List.map_cons]
        rw [List.filter_cons_of_neg (by simpa using hx)]
      · rw [List.filter_cons_of_neg (by simpa using hc)]

open Classical in
/-- C88.  Whatever connections open, subscribe, unsubscribe, send anything else and close, and whatever is broadcast: a connection is
sent exactly the broadcasts on channels it is listening to at that moment, in order and once each.
Partial: nobody can listen to a channel with other than ASCII characters in its name. -/
theorem C88_delivery_partial (evs : List LEv) (c : Nat) :
    sentTo (lrun {} evs) c =
      ((broadcasts [] evs).filter (fun b => decide (Listening b.1 c b.2.1 ∧ Ascii b.2.1))).map (fun b => b.2.2) := by
  have gen : ∀ (evs past : List LEv), sentTo (lrun (lrun {} past) evs) c = sentTo (lrun {} past) c ++
      ((broadcasts past evs).filter (fun b => decide (Listening b.1 c b.2.1 ∧ Ascii b.2.1))).map (fun b => b.2.2) := by
    intro evs
    induction evs with
    | nil => intro past; simp [lrun, broadcasts]
    | cons e evs ih =>
      intro past
      have hs : lrun (lrun {} past) (e :: evs) = lrun (lrun {} (past ++ [e])) evs := by rw [lrun_snoc]; rfl
      rw [hs, ih (past ++ [e]), lrun_snoc]
      cases e with
      | opened d => rfl
      | message d m => rfl
      | binary d => rfl
      | lost d => rfl
      | broadcast ch msg =>
        have hb := one_broadcast (lrun {} past).clients (lrun_nodup past {} (by simp)) c ch msg
        have hl := (chans_history past c).2 ch
        have hst : sentTo (lstep (lrun {} past) (.broadcast ch msg)) c = sentTo (lrun {} past) c ++
            (if ∃ cs, chansOf (lrun {} past).clients c = some cs ∧ Chan.text ch ∈ cs then [msg] else []) := by
          rw [← hb]
          simp [sentTo, lstep]
        rw [hst]
        simp only [broadcasts]
        by_cases hli : Listening past c ch ∧ Ascii ch
        · rw [if_pos (hl.2 hli), List.filter_cons_of_pos (by simpa using hli)]
          simp
        · rw [if_neg (fun h => hli (hl.1 h)), List.filter_cons_of_neg (by simpa using hli)]
          simp
  have := gen evs []
  simpa [lrun, sentTo] using this

/-- The messages of a connection. -/
def messagesOf (c : Nat) : List LEv → List CMsg
  | [] => []
  | .message d m :: evs => if d = c then m :: messagesOf c evs else messagesOf c evs
  | _ :: evs => messagesOf c evs

theorem mem_messagesOf (c : Nat) (m : CMsg) (evs : List LEv) : m ∈ messagesOf c evs ↔ .message c m ∈ evs := by
  induction evs with
  | nil => simp [messagesOf]
  | cons e evs ih =>
    cases e with
    | message d m' =>
      simp only [messagesOf, List.mem_cons, LEv.message.injEq]
      by_cases hd : d = c
      · simp [hd, ih]
      · have : ¬ c = d := fun h => hd h.symm
        simp [hd, ih, this]
    | opened d => simp [messagesOf, ih]
    | binary d => simp [messagesOf, ih]
    | lost d => simp [messagesOf, ih]
    | broadcast a b => simp [messagesOf, ih]

/-- C88, from end to end: after a client with its list of channels has connected and its messages have arrived, whatever else happened
in between, it listens to the channels of its list and to no others. -/
theorem C88_client_listens (channels : List (List Char)) (pre mid : List LEv) (c : Nat) (ch : List Char)
    (hl : .lost c ∉ mid) (ho : .opened c ∉ mid) (hm : messagesOf c mid = onOpen channels) :
    Listening (pre ++ .opened c :: mid) c ch ↔ ch ∈ channels := by
  have hask : ∀ m, .message c m ∈ mid → ∃ x ∈ channels, m = .obj (some (.text x)) none := by
    intro m h
    have := (mem_messagesOf c m mid).2 h
    rw [hm] at this
    obtain ⟨x, hx, hxe⟩ := List.mem_map.1 this
    exact ⟨x, hx, hxe.symm⟩
  constructor
  · rintro ⟨p, m, q, h, _, ha, _, hoq, _⟩
    have hmem : .message c m ∈ mid := by
      rcases List.append_eq_append_iff.1 h with ⟨a, h1, h2⟩ | ⟨a, h1, h2⟩
      · cases a with
        | nil => simp at h2
        | cons y ys =>
          simp only [List.cons_append, List.cons.injEq] at h2
          rw [h2.2]; simp
      · cases a with
        | nil => simp at h2
        | cons y ys =>
          simp only [List.cons_append, List.cons.injEq] at h2
          exfalso; apply hoq; rw [h2.2]; simp
    obtain ⟨x, hx, hxe⟩ := hask m hmem
    rw [hxe] at ha
    have : x = ch := by simpa using ha.1
    rw [← this]; exact hx
  · intro hch
    have h1 : CMsg.obj (some (.text ch)) none ∈ messagesOf c mid := by
      rw [hm]; exact List.mem_map.2 ⟨ch, hch, rfl⟩
    obtain ⟨a, b, hab⟩ := List.append_of_mem ((mem_messagesOf _ _ _).1 h1)
    refine ⟨pre ++ .opened c :: a, .obj (some (.text ch)) none, b, by rw [hab]; simp, ?_, ⟨rfl, by simp⟩, ?_, ?_, ?_⟩
    · refine ⟨pre, a, rfl, ?_⟩
      intro h; apply hl; rw [hab]; simp [h]
    · intro h; apply hl; rw [hab]; simp [h]
    · intro h; apply ho; rw [hab]; simp [h]
    · intro m' h'
      obtain ⟨x, _, hxe⟩ := hask m' (by rw [hab]; simp [h'])
      rw [hxe]; simp [Leaves]

/-- What arrived at a client's factory. -/
def receivedOf : List FEv → List (List Char)
  | [] => []
  | .received m :: evs => m :: receivedOf evs
  | _ :: evs => receivedOf evs

/-- C88.  The consumer is handed everything its factory receives, in order and once each. -/
theorem C88_handed_on (evs : List FEv) : (frun evs).handed.reverse = receivedOf evs := by
  have gen : ∀ (evs : List FEv) (s : FState), (evs.foldl fstep s).handed.reverse = s.handed.reverse ++ receivedOf evs := by
    intro evs
    induction evs with
    | nil => intro s; simp [receivedOf]
    | cons e evs ih =>
      intro s
      rw [List.foldl_cons, ih]
      cases e <;> simp [fstep, receivedOf]
  simpa [frun, FState.init] using gen evs FState.init

/-- What a consumer told the factory, in order. -/
def controlsOf : List FEv → List FEv
  | [] => []
  | .received _ :: evs => controlsOf evs
  | e :: evs => e :: controlsOf evs

/-- C88.  A factory is stopped unless the last thing it was told is to resume; a new one is stopped. -/
theorem C88_stopped (evs : List FEv) : (frun evs).stopped = true ↔ (controlsOf evs).getLast? ≠ some .resume := by
  have gen : ∀ (evs : List FEv) (s : FState), (evs.foldl fstep s).stopped =
      (match (controlsOf evs).getLast? with | none => s.stopped | some e => decide (e ≠ .resume)) := by
    intro evs
    induction evs with
    | nil => intro s; rfl
    | cons e evs ih =>
      intro s
      rw [List.foldl_cons, ih]
      have hc : ∀ l : List FEv, (e :: l).getLast? = (match l.getLast? with | none => some e | some x => some x) := by
        intro l
        cases l with
        | nil => rfl
        | cons a l => rw [List.getLast?_cons_cons]; cases h : (a :: l).getLast? <;> simp_all
      cases e <;> simp only [controlsOf] <;> (try rw [hc]) <;> cases h : (controlsOf evs).getLast? <;> simp [fstep]
  rw [frun, gen]
  cases h : (controlsOf evs).getLast? <;> simp [FState.init]

example : (frun []).stopped = true ∧ (frun [.pause, .resume, .received ['a']]).stopped = false := by decide

/-- Pausing has no effect: a paused client goes on handing data to its consumer (websocket.py:605-615). -/
theorem C88_false_pause : ∃ evs : List FEv, (frun evs).stopped = true ∧ (frun (evs ++ [.received ['a']])).handed = [['a']] :=
  ⟨[.resume, .pause], by decide, by decide⟩

/-- A legacy input of the configuration never hears anything: it is made without channels (backend.py:238-253), so whatever is
broadcast and whatever others do, it is sent nothing. -/
theorem C88_false_configured (evs : List LEv) (c : Nat) (hm : messagesOf c evs = onOpen []) : sentTo (lrun {} evs) c = [] := by
  rw [C88_delivery_partial]
  have hno : ∀ m, .message c m ∉ evs := by
    intro m h
    have := (mem_messagesOf c m evs).2 h
    rw [hm] at this
    simp [onOpen] at this
  have hpast : ∀ (evs past : List LEv), (∀ m, .message c m ∉ past ++ evs) → ∀ b ∈ broadcasts past evs, ∀ m, .message c m ∉ b.1 := by
    intro evs
    induction evs with
    | nil => intro past _ b hb; simp [broadcasts] at hb
    | cons e evs ih =>
      intro past h b hb
      have h' : ∀ m, .message c m ∉ (past ++ [e]) ++ evs := by simpa using h
      cases e with
      | broadcast ch msg =>
        simp only [broadcasts, List.mem_cons] at hb
        rcases hb with hb | hb
        · rw [hb]; intro m hmem; exact h m (by simp [hmem])
        · exact ih _ h' b hb
      | opened d => exact ih _ h' b hb
      | message d m => exact ih _ h' b hb
      | binary d => exact ih _ h' b hb
      | lost d => exact ih _ h' b hb
  rw [List.filter_eq_nil_iff.2, List.map_nil]
  intro b hb
  simp only [decide_eq_true_eq, not_and]
  rintro ⟨p, m, q, h, _⟩
  exact absurd (by rw [h]; simp) (hpast evs [] (by simpa using hno) b hb m)

/-- A client asks for two channels and leaves one, another one asks and closes. -/
def exLEvs : List LEv :=
  [.opened 1, .message 1 (.obj (some (.text ['a'])) none), .opened 2, .broadcast ['a'] ['x'],
   .message 2 (.obj (some (.text ['a'])) none), .message 1 (.obj (some (.text ['b'])) none), .broadcast ['a'] ['y'],
   .message 1 (.obj none (some (.text ['a']))), .broadcast ['a'] ['z'], .broadcast ['b'] ['v'], .lost 2, .broadcast ['a'] ['w']]

example : sentTo (lrun {} exLEvs) 1 = [['x'], ['y'], ['v']] ∧ sentTo (lrun {} exLEvs) 2 = [['y'], ['z']] := by decide +kernel

/-- The conditions of `C88_client_listens`. -/
example : messagesOf 1 [.opened 2, .message 1 (.obj (some (.text ['a'])) none), .broadcast ['a'] ['x'],
      .message 1 (.obj (some (.text ['b'])) none)] = onOpen [['a'], ['b']] := by decide +kernel

/-- A configured input among others. -/
example : messagesOf 3 ([.opened 3] ++ exLEvs) = onOpen [] := by decide +kernel

/-- C88 is false of channels with other characters: the client asks for the channel and is never sent anything. -/
theorem C88_false_not_ascii :
    ∃ evs : List LEv, Listening evs 1 ['é'] ∧ sentTo (lrun {} (evs ++ [.broadcast ['é'] ['x']])) 1 = [] :=
  ⟨[.opened 1, .message 1 (.obj (some (.text ['é'])) none)],
   ⟨[.opened 1], _, [], rfl, ⟨[], [], rfl, by simp⟩, ⟨rfl, by simp⟩, by simp, by simp, by simp⟩, by decide +kernel⟩

end Verif.Ws.Legacy
