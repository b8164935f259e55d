import Verif.Node.Handover
import Verif.Node.SeenProps

/-
C34, C35: the handover node.
-/
namespace Verif.Node

variable {α : Type}

/-- Specification: the delivered documents that led to an emission, as delivered, in order. -/
def chosen : List (In α) → List (Except HErr (Option (In α))) → List (NDoc α)
  | .doc d :: is, .ok (some _) :: rs => d :: chosen is rs
  | _ :: is, _ :: rs => chosen is rs
  | _, _ => []

/-- Specification: identifier and number of the delivered documents that were not refused with an error. -/
def recorded : List (In α) → List (Except HErr (Option (In α))) → List (String × Nat)
  | .doc d :: is, .ok _ :: rs => (d.seqId, d.num) :: recorded is rs
  | _ :: is, _ :: rs => recorded is rs
  | _, _ => []

/-- Specification: the documents among what is emitted. -/
def docsOf : List (In α) → List (NDoc α)
  | [] => []
  | .doc d :: is => d :: docsOf is
  | .msg _ :: is => docsOf is

/-- Specification: the messages among what is emitted or delivered. -/
def msgsOf : List (In α) → List Msg
  | [] => []
  | .doc _ :: is => msgsOf is
  | .msg m :: is => m :: msgsOf is

/-- What the node gives out for a delivery history, in order. -/
def output (cfg : HCfg) (h : List (In α)) : List (In α) := emitted (runH cfg {} h).2

/-- The delivered documents that the node passed on. -/
def passedOn (cfg : HCfg) (h : List (In α)) : List (NDoc α) := chosen h (runH cfg {} h).2

/-- What is answered to one more delivery. -/
def response (cfg : HCfg) (h : List (In α)) (i : In α) : Except HErr (Option (In α)) :=
  (handover cfg (runH cfg {} h).1 i).2

/-! ### Histories -/

theorem runH_append (cfg : HCfg) (s : HState) (h g : List (In α)) :
    runH cfg s (h ++ g) = ((runH cfg (runH cfg s h).1 g).1, (runH cfg s h).2 ++ (runH cfg (runH cfg s h).1 g).2) := by
  induction h generalizing s with
  | nil => simp [runH]
  | cons d ds ih => simp [runH, ih]

theorem runH_length (cfg : HCfg) (s : HState) (h : List (In α)) : (runH cfg s h).2.length = h.length := by
  induction h generalizing s with
  | nil => rfl
  | cons d ds ih => simp [runH, ih]

theorem emitted_append (a b : List (Except HErr (Option (In α)))) : emitted (a ++ b) = emitted a ++ emitted b := by
  induction a with
  | nil => rfl
  | cons x xs ih =>
    rcases x with e | o
    · simpa [emitted] using ih
    · cases o <;> simpa [emitted] using ih

theorem docsOf_append (a b : List (In α)) : docsOf (a ++ b) = docsOf a ++ docsOf b := by
  induction a with
  | nil => rfl
  | cons x xs ih => cases x <;> simpa [docsOf] using ih

theorem msgsOf_append (a b : List (In α)) : msgsOf (a ++ b) = msgsOf a ++ msgsOf b := by
  induction a with
  | nil => rfl
  | cons x xs ih => cases x <;> simpa [msgsOf] using ih

theorem chosen_append (h g : List (In α)) (a b : List (Except HErr (Option (In α)))) (hl : a.length = h.length) :
    chosen (h ++ g) (a ++ b) = chosen h a ++ chosen g b := by
  induction h generalizing a with
  | nil => cases a with
    | nil => simp [chosen]
    | cons _ _ => simp at hl
  | cons i is ih =>
    cases a with
    | nil => simp at hl
    | cons x xs =>
      have := ih xs (by simpa using hl)
      cases i with
      | msg m => simpa [chosen] using this
      | doc d =>
        rcases x with e | o
        · simpa [chosen] using this
        · cases o <;> simpa [chosen] using this

theorem recorded_append (h g : List (In α)) (a b : List (Except HErr (Option (In α)))) (hl : a.length = h.length) :
    recorded (h ++ g) (a ++ b) = recorded h a ++ recorded g b := by
  induction h generalizing a with
  | nil => cases a with
    | nil => simp [recorded]
    | cons _ _ => simp at hl
  | cons i is ih =>
    cases a with
    | nil => simp at hl
    | cons x xs =>
      have := ih xs (by simpa using hl)
      cases i with
      | msg m => simpa [recorded] using this
      | doc d => cases x <;> simpa [recorded] using this

theorem output_snoc (cfg : HCfg) (h : List (In α)) (i : In α) :
    output cfg (h ++ [i]) = output cfg h ++ emitted [response cfg h i] := by
  simp [output, runH_append, emitted_append, runH, response]

theorem passedOn_snoc (cfg : HCfg) (h : List (In α)) (i : In α) :
    passedOn cfg (h ++ [i]) = passedOn cfg h ++ chosen [i] [response cfg h i] := by
  unfold passedOn
  rw [runH_append, chosen_append _ _ _ _ (runH_length cfg {} h)]
  simp [runH, response]

/-- The outcomes of one delivery. -/
theorem handover_cases (cfg : HCfg) (s : HState) (d : NDoc α) :
    (∃ e q, compat ((s.known.get d.seqId).getD (newSeq d.toDoc)) d.toDoc = .error e ∧
      q = (s.known.get d.seqId).getD (newSeq d.toDoc) ∧
      handover cfg s (.doc d) = ({ s with known := s.known.put d.seqId q }, .error e)) ∨
    (∃ q, compat ((s.known.get d.seqId).getD (newSeq d.toDoc)) d.toDoc = .ok q ∧
      ¬ ((checkSeen s.seen d.seqId d.num).1 = true ∧ d.agid = cfg.agid ∧ ∃ t, d.token = some t ∧ decideEmit s d.seqId t = true) ∧
      handover cfg s (.doc d) =
        ({ s with known := s.known.put d.seqId q, seen := (checkSeen s.seen d.seqId d.num).2 }, .ok none)) ∨
    (∃ q t, compat ((s.known.get d.seqId).getD (newSeq d.toDoc)) d.toDoc = .ok q ∧
      (checkSeen s.seen d.seqId d.num).1 = true ∧ d.agid = cfg.agid ∧ d.token = some t ∧ decideEmit s d.seqId t = true ∧
      handover cfg s (.doc d) =
        ({ s with known := s.known.put d.seqId q, seen := (checkSeen s.seen d.seqId d.num).2, token := some t,
                  selected := some d.seqId, last := s.last + 1 },
         .ok (some (.doc { d with selected := some d.seqId, seqId := cfg.outId, num := s.last + 1 })))) := by
  unfold handover
  cases hc : compat ((s.known.get d.seqId).getD (newSeq d.toDoc)) d.toDoc with
  | error e => left; exact ⟨e, _, rfl, rfl, by simp [hc]⟩
  | ok q =>
    right
    cases ht : d.token with
    | none => left; exact ⟨q, rfl, by simp, by simp [hc, ht]⟩
    | some t =>
      by_cases hx : (checkSeen s.seen d.seqId d.num).1 = true ∧ d.agid = cfg.agid ∧ decideEmit s d.seqId t = true
      · right; exact ⟨q, t, rfl, hx.1, hx.2.1, rfl, hx.2.2, by simp only [hc, ht, if_pos hx]⟩
      · left
        refine ⟨q, rfl, ?_, by simp only [hc, ht, if_neg hx]⟩
        rintro ⟨h1, h2, t', h3, h4⟩
        injection h3 with h3
        exact hx ⟨h1, h2, h3 ▸ h4⟩

/-- What the node's state is after a history, in terms of what was delivered and passed on. -/
structure Inv (cfg : HCfg) (h : List (In α)) : Prop where
  seen : (runH cfg {} h).1.seen = (answers [] (recorded h (runH cfg {} h).2)).2
  last : (runH cfg {} h).1.last = (passedOn cfg h).length
  token : (runH cfg {} h).1.token = (passedOn cfg h).getLast?.bind (·.token)
  selected : (runH cfg {} h).1.selected = (passedOn cfg h).getLast?.map (·.seqId)
  tokens : ∀ d ∈ passedOn cfg h, d.token.isSome = true ∧ d.agid = cfg.agid

theorem runH_snoc (cfg : HCfg) (h : List (In α)) (i : In α) :
    runH cfg {} (h ++ [i]) =
      ((handover cfg (runH cfg {} h).1 i).1, (runH cfg {} h).2 ++ [(handover cfg (runH cfg {} h).1 i).2]) := by
  simp [runH_append, runH]

theorem inv (cfg : HCfg) (h : List (In α)) : Inv cfg h := by
  induction h using snoc_induction with
  | nil => exact ⟨rfl, rfl, rfl, rfl, by simp [passedOn, runH, chosen]⟩
  | snoc h i ih =>
    have hrec : recorded (h ++ [i]) (runH cfg {} (h ++ [i])).2 =
        recorded h (runH cfg {} h).2 ++ recorded [i] [(handover cfg (runH cfg {} h).1 i).2] := by
      rw [runH_snoc]; exact recorded_append _ _ _ _ (runH_length cfg {} h)
    have hp := passedOn_snoc cfg h i
    unfold response at hp
    have hst : (runH cfg {} (h ++ [i])).1 = (handover cfg (runH cfg {} h).1 i).1 := by rw [runH_snoc]
    cases i with
    | msg m =>
      simp only [handover, chosen, recorded, List.append_nil] at hp hst hrec
      exact ⟨by rw [hst, hrec]; exact ih.seen, by rw [hst, hp]; exact ih.last, by rw [hst, hp]; exact ih.token,
        by rw [hst, hp]; exact ih.selected, by rw [hp]; exact ih.tokens⟩
    | doc d =>
      rcases handover_cases cfg (runH cfg {} h).1 d with ⟨e, q, _, _, he⟩ | ⟨q, _, _, he⟩ | ⟨q, t, _, _, hag, ht, _, he⟩
      · rw [he] at hp hst hrec
        simp only [chosen, recorded, List.append_nil] at hp hst hrec
        exact ⟨by rw [hst, hrec]; exact ih.seen, by rw [hst, hp]; exact ih.last, by rw [hst, hp]; exact ih.token,
          by rw [hst, hp]; exact ih.selected, by rw [hp]; exact ih.tokens⟩
      · rw [he] at hp hst hrec
        simp only [chosen, recorded, List.append_nil] at hp hst hrec
        refine ⟨?_, by rw [hst, hp]; exact ih.last, by rw [hst, hp]; exact ih.token,
          by rw [hst, hp]; exact ih.selected, by rw [hp]; exact ih.tokens⟩
        rw [hst, hrec, answers_append]
        simp only [answers, ih.seen]
      · rw [he] at hp hst hrec
        simp only [chosen, recorded] at hp hst hrec
        refine ⟨?_, ?_, ?_, ?_, ?_⟩
        · rw [hst, hrec, answers_append]
          simp only [answers, ih.seen]
        · rw [hst, hp]; simp [ih.last]
        · rw [hst, hp]; simp [ht]
        · rw [hst, hp]; simp
        · rw [hp]
          intro x hx
          simp only [List.mem_append, List.mem_cons, List.not_mem_nil, or_false] at hx
          rcases hx with hx | rfl
          · exact ih.tokens x hx
          · exact ⟨by simp [ht], hag⟩

/-! ### C34 -/

/-- Specification: `docs` readdressed to the sequence `outId` and numbered from `k + 1`, nothing else
changed but the note which sequence each was taken from. -/
def readdressed (outId : String) (k : Nat) : List (NDoc α) → List (NDoc α)
  | [] => []
  | d :: ds => { d with selected := some d.seqId, seqId := outId, num := k + 1 } :: readdressed outId (k + 1) ds

theorem readdressed_append (o : String) (k : Nat) (a b : List (NDoc α)) :
    readdressed o k (a ++ b) = readdressed o k a ++ readdressed o (k + a.length) b := by
  induction a generalizing k with
  | nil => rfl
  | cons x xs ih => simp [readdressed, ih, Nat.add_assoc, Nat.add_comm]

/-- **C34**  Whatever is delivered, from any number of sequences in any order, the documents given out are
the passed-on ones, in order, readdressed to the configured sequence and numbered 1, 2, 3, ... -/
theorem C34_output (cfg : HCfg) (h : List (In α)) :
    docsOf (output cfg h) = readdressed cfg.outId 0 (passedOn cfg h) := by
  induction h using snoc_induction with
  | nil => rfl
  | snoc h i ih =>
    rw [output_snoc, passedOn_snoc, docsOf_append, ih, readdressed_append]
    congr 1
    unfold response
    cases i with
    | msg m => simp [handover, emitted, docsOf, chosen, readdressed]
    | doc d =>
      rcases handover_cases cfg (runH cfg {} h).1 d with ⟨e, q, _, _, he⟩ | ⟨q, _, _, he⟩ | ⟨q, t, _, _, hag, ht, _, he⟩
      · rw [he]; simp [emitted, docsOf, chosen, readdressed]
      · rw [he]; simp [emitted, docsOf, chosen, readdressed]
      · rw [he]; simp [emitted, docsOf, chosen, readdressed, (inv cfg h).last]

theorem readdressed_num (o : String) (k : Nat) (l : List (NDoc α)) :
    (readdressed o k l).map (·.num) = List.range' (k + 1) l.length := by
  induction l generalizing k with
  | nil => rfl
  | cons x xs ih => simp [readdressed, ih, List.range'_succ]

/-- **C34**  The numbers given out are 1, 2, ..., n without gap or repetition. -/
theorem C34_numbers (cfg : HCfg) (h : List (In α)) :
    (docsOf (output cfg h)).map (·.num) = List.range' 1 (docsOf (output cfg h)).length := by
  rw [C34_output, readdressed_num]
  have : ∀ k, (readdressed cfg.outId k (passedOn cfg h)).length = (passedOn cfg h).length := by
    induction passedOn cfg h with
    | nil => intro k; rfl
    | cons x xs ih => intro k; simp [readdressed, ih]
  rw [this]

theorem chosen_sublist : ∀ (h : List (In α)) (rs : List (Except HErr (Option (In α)))),
    ((chosen h rs).map In.doc).Sublist h
  | [], _ => by simp [chosen]
  | i :: is, [] => by cases i <;> simp [chosen]
  | .msg m :: is, r :: rs => by simpa [chosen] using (chosen_sublist is rs).cons (In.msg m)
  | .doc d :: is, .error e :: rs => by simpa [chosen] using (chosen_sublist is rs).cons (In.doc d)
  | .doc d :: is, .ok none :: rs => by simpa [chosen] using (chosen_sublist is rs).cons (In.doc d)
  | .doc d :: is, .ok (some o) :: rs => by simpa [chosen] using (chosen_sublist is rs).cons_cons (In.doc d)

/-- **C34**  Documents are passed on in the order of delivery, each delivery at most once. -/
theorem C34_in_delivery_order (cfg : HCfg) (h : List (In α)) : ((passedOn cfg h).map In.doc).Sublist h :=
  chosen_sublist h _

/-- **C34**  Every message is passed on, readdressed to the configured sequence. -/
theorem C34_messages (cfg : HCfg) (h : List (In α)) :
    msgsOf (output cfg h) = (msgsOf h).map (fun m => { m with sid := cfg.outId }) := by
  induction h using snoc_induction with
  | nil => rfl
  | snoc h i ih =>
    rw [output_snoc, msgsOf_append, msgsOf_append, List.map_append, ih]
    congr 1
    unfold response
    cases i with
    | msg m => simp [handover, emitted, msgsOf]
    | doc d =>
      rcases handover_cases cfg (runH cfg {} h).1 d with ⟨e, q, _, _, he⟩ | ⟨q, _, _, he⟩ | ⟨q, t, _, _, hag, ht, _, he⟩ <;>
        rw [he] <;> simp [emitted, msgsOf]

/-! ### C35 -/

/-- **C35**  After any history, a document that is not refused with an error is passed on exactly when its
number is new in its sequence, it belongs to the configured authors group and has a token, and either
nothing was passed on yet, or its token is strictly greater than that of the document passed on last, or
it belongs to the same sequence as that one. -/
theorem C35_passed_on_iff (cfg : HCfg) (h : List (In α)) (d : NDoc α) :
    (∃ o, response cfg h (.doc d) = .ok (some o)) ↔
      (∃ r, response cfg h (.doc d) = .ok r) ∧
      d.num ∉ lastOf 100 (accepted d.seqId (recorded h (runH cfg {} h).2) (answers [] (recorded h (runH cfg {} h).2)).1) ∧
      d.agid = cfg.agid ∧
      ∃ t, d.token = some t ∧
        ∀ l, (passedOn cfg h).getLast? = some l → (∀ c, l.token = some c → c < t) ∨ l.seqId = d.seqId := by
  have hi := inv cfg h
  have hemit : ∀ t, decideEmit (runH cfg {} h).1 d.seqId t = true ↔
      ∀ l, (passedOn cfg h).getLast? = some l → (∀ c, l.token = some c → c < t) ∨ l.seqId = d.seqId := by
    intro t
    unfold decideEmit
    rw [hi.token, hi.selected]
    cases hl : (passedOn cfg h).getLast? with
    | none => simp
    | some l =>
      obtain ⟨c, hc⟩ := Option.isSome_iff_exists.mp (hi.tokens l (List.mem_of_getLast? hl)).1
      simp [hc]
  have hnew := C33_new_iff (recorded h (runH cfg {} h).2) d.seqId d.num
  rw [← hi.seen] at hnew
  rw [← hnew]
  unfold response
  rcases handover_cases cfg (runH cfg {} h).1 d with ⟨e, q, _, _, he⟩ | ⟨q, _, hno, he⟩ | ⟨q, t, _, hs, hag, ht, hd, he⟩
  · rw [he]; simp
  · rw [he]
    constructor
    · rintro ⟨o, ho⟩; simp at ho
    · rintro ⟨_, h1, h2, t, h3, h4⟩
      exact absurd ⟨h1, h2, t, h3, (hemit t).mpr h4⟩ hno
  · rw [he]
    exact ⟨fun _ => ⟨⟨_, rfl⟩, hs, hag, t, ht, (hemit t).mp hd⟩, fun _ => ⟨_, rfl⟩⟩

/-- What holds between neighbours of a list. -/
def Neighbours {β : Type} (R : β → β → Prop) : List β → Prop
  | a :: b :: l => R a b ∧ Neighbours R (b :: l)
  | _ => True

theorem Neighbours.snoc {β : Type} {R : β → β → Prop} : ∀ {l : List β} {x : β}, Neighbours R l →
    (∀ y, l.getLast? = some y → R y x) → Neighbours R (l ++ [x])
  | [], _, _, _ => trivial
  | [a], x, _, h => ⟨h a rfl, trivial⟩
  | a :: b :: l, x, h, hx => ⟨h.1, Neighbours.snoc (l := b :: l) h.2 (fun y hy => hx y (by simpa [List.getLast?_cons_cons] using hy))⟩

/-- **C35**  The node changes from one sequence to another only on a strictly greater token: of two
documents passed on one after the other, the second is of the same sequence or has the greater token.  All
of them belong to the configured group and carry a token. -/
theorem C35_switches_only_up (cfg : HCfg) (h : List (In α)) :
    Neighbours (fun a b => a.seqId = b.seqId ∨ ∃ s t, a.token = some s ∧ b.token = some t ∧ s < t) (passedOn cfg h) ∧
    ∀ d ∈ passedOn cfg h, d.agid = cfg.agid ∧ ∃ t, d.token = some t := by
  constructor
  · induction h using snoc_induction with
    | nil => trivial
    | snoc h i ih =>
      rw [passedOn_snoc]
      cases i with
      | msg m => simpa [chosen] using ih
      | doc d =>
        by_cases hc : ∃ o, response cfg h (.doc d) = .ok (some o)
        · obtain ⟨o, ho⟩ := hc
          obtain ⟨_, _, _, t, ht, hl⟩ := (C35_passed_on_iff cfg h d).mp ⟨o, ho⟩
          rw [ho]
          simp only [chosen]
          refine Neighbours.snoc ih ?_
          intro l hll
          rcases hl l hll with h1 | h1
          · right
            obtain ⟨c, hc⟩ := Option.isSome_iff_exists.mp ((inv cfg h).tokens l (List.mem_of_getLast? hll)).1
            exact ⟨c, t, hc, ht, h1 c hc⟩
          · left; exact h1
        · have : chosen [In.doc d] [response cfg h (.doc d)] = [] := by
            cases hr : response cfg h (.doc d) with
            | error e => simp [chosen]
            | ok r => cases r with
              | none => simp [chosen]
              | some o => exact absurd ⟨o, hr⟩ hc
          rw [this, List.append_nil]
          exact ih
  · intro d hd
    have := (inv cfg h).tokens d hd
    exact ⟨this.2, Option.isSome_iff_exists.mp this.1⟩

theorem Known.put_get : ∀ (k : Known) (sid : String) (q : Option Seq.State), k.get sid = some q → k.put sid q = k
  | [], _, _, h => by simp [Known.get] at h
  | (a, v) :: r, sid, q, h => by
    rw [Known.get] at h
    rw [Known.put]
    split
    · rename_i ha; rw [if_pos ha] at h; injection h with h; rw [h]
    · rename_i ha; rw [if_neg ha] at h; rw [Known.put_get r sid q h]

theorem Known.get_put : ∀ (k : Known) (sid : String) (q : Option Seq.State) (x : String),
    (k.put sid q).get x = if x = sid then some q else k.get x
  | [], sid, q, x => by
    by_cases h : x = sid
    · simp [Known.put, Known.get, h]
    · have h' : ¬ sid = x := fun e => h e.symm
      simp [Known.put, Known.get, h, h']
  | (a, v) :: r, sid, q, x => by
    rw [Known.put]
    split
    · rename_i ha
      subst ha
      by_cases h : a = x
      · subst h; simp [Known.get]
      · have h' : ¬ x = a := fun e => h e.symm
        simp [Known.get, h, h']
    · rename_i ha
      rw [Known.get, Known.get]
      split
      · rename_i h; subst h; rw [if_neg ha]
      · exact Known.get_put r sid q x

/-- A sequence made from a document accepts that document. -/
theorem newSeq_accepts (d : Seq.Doc) (h : clockOf d ≠ none) : ∃ q, compat (newSeq d) d = .ok q := by
  obtain ⟨c, hc⟩ := Option.ne_none_iff_exists'.mp h
  have hcfg : c.seqId = d.seqId ∧ c.timeBase = d.timeBase ∧ (c.timeBase = "clock" → c.clockMode = d.clockMode) := by
    unfold clockOf at hc
    split at hc
    · split at hc
      · rename_i h1 h2; injection hc with hc; subst hc; simp [h1, h2]
      · split at hc
        · rename_i h1 _ h2; injection hc with hc; subst hc; simp [h1, h2]
        · simp at hc
    · split at hc
      · rename_i h2; injection hc with hc; subst hc; simp [h2]
      · split at hc
        · rename_i h2; injection hc with hc; subst hc; simp [h2]
        · simp at hc
  unfold newSeq compat
  rw [hc]
  simp only [Option.map_some, Seq.checkCompat, Seq.State.init, Seq.existsNum, List.dropWhile_nil]
  rw [if_neg (by simp [hcfg.1, hcfg.2.1]), if_neg (by intro ⟨h1, h2⟩; exact h2 (hcfg.2.2 h1))]
  cases hg : d.agid with
  | none => simp
  | some g => by_cases hge : g = "" <;> simp [hge]

/-- **C35**  A document that is refused with an error — it does not fit its sequence, for example because it
names another authors group — leaves the node as it was, so everything after it is handled as if it had not
been delivered.  (A first document in a clock mode the toolkit has no clock for is the only exception: the
node then remembers a sequence without a clock.) -/
theorem C35_refused_without_effect (cfg : HCfg) (h g : List (In α)) (d : NDoc α) (e : HErr)
    (hr : response cfg h (.doc d) = .error e) (hc : clockOf d.toDoc ≠ none) :
    output cfg (h ++ [.doc d] ++ g) = output cfg (h ++ g) := by
  have hsame : (handover cfg (runH cfg {} h).1 (.doc d)).1 = (runH cfg {} h).1 := by
    rcases handover_cases cfg (runH cfg {} h).1 d with ⟨e', q, hq, hq', he⟩ | ⟨q, _, _, he⟩ | ⟨q, t, _, _, hag, ht, _, he⟩
    · rw [he]
      cases hk : (runH cfg {} h).1.known.get d.seqId with
      | none =>
        rw [hk] at hq
        obtain ⟨q2, h2⟩ := newSeq_accepts d.toDoc hc
        simp only [Option.getD_none] at hq
        rw [h2] at hq
        cases hq
      | some v =>
        rw [hk] at hq'
        simp only [Option.getD_some] at hq'
        subst hq'
        simp only [Known.put_get _ _ _ hk]
    · unfold response at hr; rw [he] at hr; cases hr
    · unfold response at hr; rw [he] at hr; cases hr
  unfold output
  unfold response at hr
  rw [runH_append cfg {} (h ++ [In.doc d]) g, runH_append cfg {} h g, runH_snoc, hsame, hr]
  simp [emitted_append, emitted]

/-- A document's sequence and the documents already delivered in it agree on time base, clock mode and
authors group. -/
def Uniform (h : List (In α)) (d : NDoc α) : Prop :=
  clockOf d.toDoc ≠ none ∧ ∀ x : NDoc α, In.doc x ∈ h → x.seqId = d.seqId →
    x.timeBase = d.timeBase ∧ x.clockMode = d.clockMode ∧ x.agid = d.agid

theorem compat_again {d x : Seq.Doc} {st : Seq.State} (hst : st.docs = []) (hs : x.seqId = d.seqId)
    (ht : x.timeBase = d.timeBase) (hm : x.clockMode = d.clockMode) (ha : x.agid = d.agid)
    {q : Option Seq.State} (hq : compat (some st) x = .ok q) :
    ∃ st', q = some st' ∧ st'.docs = [] ∧ compat q d = .ok q := by
  unfold compat at hq
  simp only at hq
  cases hcc : Seq.checkCompat st x with
  | error o => rw [hcc] at hq; cases hq
  | ok g =>
    rw [hcc] at hq
    simp only at hq
    injection hq with hq
    subst hq
    refine ⟨{ st with agid := g }, rfl, hst, ?_⟩
    unfold Seq.checkCompat at hcc
    rw [hst] at hcc
    unfold compat Seq.checkCompat
    simp only [hst]
    rw [hs, ht] at hcc
    rw [hm, ha] at hcc
    split at hcc
    · cases hcc
    · rename_i h1
      split at hcc
      · cases hcc
      · rename_i h2
        rw [if_neg h1, if_neg h2]
        simp only [Seq.existsNum, List.dropWhile_nil, Bool.false_eq_true, if_false] at hcc ⊢
        cases hg : d.agid with
        | none => simp
        | some w =>
          rw [hg] at hcc
          simp only at hcc ⊢
          by_cases hw : w = ""
          · simp [hw]
          · rw [if_neg hw] at hcc ⊢
            cases hsa : st.agid with
            | none => rw [hsa] at hcc; simp only at hcc; injection hcc with hcc; subst hcc; simp
            | some w' =>
              rw [hsa] at hcc
              simp only at hcc
              split at hcc
              · cases hcc
              · rename_i hne; injection hcc with hcc; subst hcc; simp only; rw [if_neg hne]

/-- **C35**  A document is never refused with an error if the documents delivered before in its sequence
have the same time base, clock mode and authors group as it has, whatever other sequences are interleaved. -/
theorem C35_uniform_not_refused (cfg : HCfg) (h : List (In α)) (d : NDoc α) (hu : Uniform h d) :
    ∃ r, response cfg h (.doc d) = .ok r := by
  have key : ∀ q, (runH cfg {} h).1.known.get d.seqId = some q → ∃ st, q = some st ∧ st.docs = [] ∧ compat q d.toDoc = .ok q := by
    revert hu
    induction h using snoc_induction with
    | nil => intro _ q hq; simp [runH, Known.get] at hq
    | snoc h i ih =>
      intro hu q hq
      have hu' : Uniform h d := ⟨hu.1, fun x hx => hu.2 x (List.mem_append_left _ hx)⟩
      have ih := ih hu'
      rw [runH_snoc] at hq
      simp only at hq
      cases i with
      | msg m => exact ih q hq
      | doc x =>
        by_cases hs : x.seqId = d.seqId
        · obtain ⟨h1, h2, h3⟩ := hu.2 x (by simp) hs
          have hcx : clockOf x.toDoc ≠ none := by
            have := hu.1
            unfold clockOf at this ⊢
            rw [h1, h2, hs]
            exact this
          have hbase : ∀ w, (runH cfg {} h).1.known.get x.seqId = some w → ∃ st, w = some st ∧ st.docs = [] := by
            intro w hw; rw [hs] at hw; obtain ⟨st, e1, e2, _⟩ := ih w hw; exact ⟨st, e1, e2⟩
          have hgetD : ∃ st, ((runH cfg {} h).1.known.get x.seqId).getD (newSeq x.toDoc) = some st ∧ st.docs = [] := by
            cases hk : (runH cfg {} h).1.known.get x.seqId with
            | some w => obtain ⟨st, e1, e2⟩ := hbase w hk; exact ⟨st, by simp [e1], e2⟩
            | none =>
              obtain ⟨c, hc⟩ := Option.ne_none_iff_exists'.mp hcx
              exact ⟨Seq.State.init c x.agid, by simp [newSeq, hc], rfl⟩
          obtain ⟨st, hst, hnil⟩ := hgetD
          rcases handover_cases cfg (runH cfg {} h).1 x with ⟨e', q', hq1, hq', he⟩ | ⟨q', hq1, _, he⟩ | ⟨q', t, hq1, _, _, _, _, he⟩
          · exfalso
            cases hk : (runH cfg {} h).1.known.get x.seqId with
            | some w =>
              rw [hk] at hq1
              rw [hs] at hk
              obtain ⟨st', e1, e2, e3⟩ := ih w hk
              simp only [Option.getD_some] at hq1
              subst e1
              obtain ⟨q3, hq3⟩ : ∃ q3, compat (some st') x.toDoc = .ok q3 := by
                have : compat (some st') x.toDoc = compat (some st') d.toDoc := by
                  simp only [compat, Seq.checkCompat, Seq.existsNum, e2, hs, h1, h2, h3, List.dropWhile_nil]
                rw [this]; exact ⟨_, e3⟩
              rw [hq3] at hq1; cases hq1
            | none =>
              rw [hk] at hq1
              obtain ⟨q3, hq3⟩ := newSeq_accepts x.toDoc hcx
              simp only [Option.getD_none] at hq1
              rw [hq3] at hq1; cases hq1
          · rw [he] at hq
            simp only [Known.get_put, hs, if_true] at hq
            injection hq with hq
            subst hq
            rw [hst] at hq1
            exact compat_again hnil hs h1 h2 h3 hq1
          · rw [he] at hq
            simp only [Known.get_put, hs, if_true] at hq
            injection hq with hq
            subst hq
            rw [hst] at hq1
            exact compat_again hnil hs h1 h2 h3 hq1
        · have hs' : ¬ d.seqId = x.seqId := fun e => hs e.symm
          rcases handover_cases cfg (runH cfg {} h).1 x with ⟨e', q', hq1, hq', he⟩ | ⟨q', hq1, _, he⟩ | ⟨q', t, hq1, _, _, _, _, he⟩ <;>
          · rw [he] at hq
            simp only [Known.get_put, if_neg hs'] at hq
            exact ih q hq
  unfold response
  rcases handover_cases cfg (runH cfg {} h).1 d with ⟨e', q', hq1, hq', he⟩ | ⟨q', hq1, _, he⟩ | ⟨q', t, hq1, _, _, _, _, he⟩
  · exfalso
    cases hk : (runH cfg {} h).1.known.get d.seqId with
    | some w =>
      rw [hk] at hq1
      obtain ⟨_, _, _, e3⟩ := key w hk
      simp only [Option.getD_some] at hq1
      rw [e3] at hq1; cases hq1
    | none =>
      rw [hk] at hq1
      obtain ⟨q3, hq3⟩ := newSeq_accepts d.toDoc hu.1
      simp only [Option.getD_none] at hq1
      rw [hq3] at hq1; cases hq1
  · exact ⟨_, by rw [he]⟩
  · exact ⟨_, by rw [he]⟩

/-! ### Examples -/

/-- A document of authors group `g` in sequence `sid` with number `n` and token `t`. -/
def exDoc (sid : String) (n : Nat) (g : String) (t : Option Nat) : NDoc String :=
  { uid := n, seqId := sid, num := n, timeBase := "clock", clockMode := some "local", agid := some g, cbegin := 0,
    cend := none, token := t, selected := none, content := sid }

def exCfg : HCfg := { agid := some "g", outId := "out" }

def exIn : List (In String) :=
  [.doc (exDoc "a" 1 "g" (some 2)), .doc (exDoc "b" 1 "g" (some 1)), .doc (exDoc "a" 2 "g" (some 2)),
   .doc (exDoc "b" 2 "g" (some 3)), .doc (exDoc "a" 3 "g" (some 3)), .msg ⟨"b", "hello"⟩, .doc (exDoc "b" 2 "g" (some 3)),
   .doc (exDoc "c" 1 "x" (some 9)), .doc (exDoc "b" 3 "x" (some 3)), .doc (exDoc "b" 4 "g" none), .doc (exDoc "b" 5 "g" (some 1)),
   .doc (exDoc "a" 4 "g" (some 2))]

/-- A run with a switch, ignored sequences, a repeat, another group, a document without token, a sequence
that lowers its token and so loses the output again. -/
example : (docsOf (output exCfg exIn)).map (fun d => (d.num, d.content, d.selected)) =
    [(1, "a", some "a"), (2, "a", some "a"), (3, "b", some "b"), (4, "b", some "b"), (5, "a", some "a")] ∧
    msgsOf (output exCfg exIn) = [⟨"out", "hello"⟩] ∧
    (response exCfg exIn (.doc (exDoc "b" 6 "x" (some 7)))).toBool = false := by decide +kernel

/-- The hypotheses of `C35_refused_without_effect` are met. -/
example : ∃ e, response exCfg exIn (.doc (exDoc "b" 6 "x" (some 7))) = .error e ∧
    clockOf (exDoc "b" 6 "x" (some 7)).toDoc ≠ none := ⟨.refused .authorsGroup, by rfl, by decide⟩

/-- The hypothesis of `C35_uniform_not_refused` is met. -/
example : Uniform [.doc (exDoc "a" 1 "g" (some 2)), .doc (exDoc "c" 1 "x" (some 9))] (exDoc "a" 2 "g" (some 1)) := by
  refine ⟨by decide, ?_⟩
  intro x hx hs
  simp only [List.mem_cons, In.doc.injEq, List.not_mem_nil, or_false] at hx
  rcases hx with rfl | rfl
  · exact ⟨rfl, rfl, rfl⟩
  · simp [exDoc] at hs

/-- The selected sequence need not be the one with the greatest token delivered last: it keeps the output
after lowering its own token, until another document with a greater one arrives. -/
theorem C35_selected_may_lower_token :
    ((passedOn exCfg [.doc (exDoc "a" 1 "g" (some 5)), .doc (exDoc "b" 1 "g" (some 4)), .doc (exDoc "a" 2 "g" (some 1))]).map
      (fun d => (d.seqId, d.token))) = [("a", some 5), ("a", some 1)] := by decide +kernel

end Verif.Node
