import Verif.Ui.Spec
import Verif.Xml.Lemmas
import Verif.Time.Lemmas

/-!
# Reading what the page writes: lemmas
-/
namespace Verif.Ui

open Verif.Xml (Text X St Mode glue blank nameChar nameOk run_append run_cons run_nil run_attrName)

/-! ### The reader does not look at what is around the innermost element it has entered -/

def frame (s : St) (u : List (Text × List (Text × Text) × List X)) : St := ⟨s.kids, s.up ++ u, s.mode⟩

def ended : Mode → Bool
  | .bad => true
  | _ => false

theorem step_ended (s : St) (c : Char) (h : ended s.mode = true) : ended (Xml.step s c).mode = true := by
  obtain ⟨k, v, m⟩ := s
  cases m <;> first | rfl | exact absurd h (by simp [ended])

theorem run_ended (cs : Text) : ∀ (s : St), ended s.mode = true → ended (Xml.run s cs).mode = true := by
  induction cs with
  | nil => exact fun s h => h
  | cons c cs ih => exact fun s h => by rw [run_cons]; exact ih _ (step_ended s c h)

theorem step_frame (s : St) (u) (c : Char) (h : ended (Xml.step s c).mode = false) :
    Xml.step (frame s u) c = frame (Xml.step s c) u := by
  obtain ⟨k, v, m⟩ := s
  cases m with
  | text =>
    simp only [Xml.step, frame]
    by_cases h1 : c = '<'
    · simp [h1]
    · by_cases h2 : c = '&'
      · simp [h2]
      · simp [h1, h2]
  | ent b =>
    simp only [Xml.step, frame]
    by_cases h1 : c = ';'
    · simp only [h1, if_true]
      cases Xml.entity b <;> rfl
    · simp [h1]
  | lt =>
    simp only [Xml.step, frame]
    by_cases h1 : c = '/'
    · simp [h1]
    · by_cases h2 : c = '?'
      · simp [h2]
      · simp [h1, h2]
  | decl =>
    simp only [Xml.step, frame]
    by_cases h1 : c = '>' <;> simp [h1]
  | name n =>
    simp only [Xml.step, frame, St.opened]
    by_cases h1 : c = '>'
    · simp [h1]
    · by_cases h2 : c = '/'
      · simp [h2]
      · by_cases h3 : blank c = true <;> simp [h1, h2, h3]
  | gap n as =>
    simp only [Xml.step, frame, St.opened]
    by_cases h1 : c = '>'
    · simp [h1]
    · by_cases h2 : c = '/'
      · simp [h2]
      · by_cases h3 : blank c = true <;> simp [h1, h2, h3]
  | attr n as a =>
    simp only [Xml.step, frame]
    by_cases h1 : c = '=' <;> simp [h1]
  | eq n as a =>
    simp only [Xml.step, frame]
    by_cases h1 : c = '"' <;> simp [h1]
  | val n as a w =>
    simp only [Xml.step, frame]
    by_cases h1 : c = '"'
    · simp [h1]
    · by_cases h2 : c = '&'
      · simp [h2]
      · simp [h1, h2]
  | valEnt n as a w b =>
    simp only [Xml.step, frame]
    by_cases h1 : c = ';'
    · simp only [h1, if_true]
      cases Xml.entity b <;> rfl
    · simp [h1]
  | slash n as =>
    simp only [Xml.step, frame]
    by_cases h1 : c = '>' <;> simp [h1]
  | close n =>
    simp only [Xml.step, frame] at h ⊢
    by_cases h1 : c = '>'
    · simp only [h1, if_true] at h ⊢
      cases v with
      | nil => simp [ended] at h
      | cons w v =>
        obtain ⟨t, as, l⟩ := w
        simp only [List.cons_append] at h ⊢
        by_cases h2 : t = n <;> simp [h2]
    · simp [h1]
  | bad => simp [Xml.step, ended] at h

theorem run_frame (cs : Text) : ∀ (s : St) (u), ended (Xml.run s cs).mode = false → Xml.run (frame s u) cs = frame (Xml.run s cs) u := by
  induction cs with
  | nil => exact fun s u h => rfl
  | cons c cs ih =>
    intro s u h
    rw [run_cons] at h ⊢
    have h1 : ended (Xml.step s c).mode = false := by
      cases he : ended (Xml.step s c).mode with
      | false => rfl
      | true => rw [run_ended cs _ he] at h; cases h
    rw [step_frame s u c h1, ih _ u h]
    rfl

/-! ### Comparing trees -/

mutual
def sameX : X → X → Bool
  | .text a, .text b => decide (a = b)
  | .elem t as ks, .elem t' as' ks' => decide (t = t') && decide (as = as') && sameL ks ks'
  | _, _ => false
def sameL : List X → List X → Bool
  | [], [] => true
  | a :: l, b :: m => sameX a b && sameL l m
  | _, _ => false
end

mutual
theorem sameX_eq : ∀ (a b : X), sameX a b = true → a = b
  | .text a, .text b, h => by simp only [sameX, decide_eq_true_eq] at h; rw [h]
  | .elem t as ks, .elem t' as' ks', h => by
    simp only [sameX, Bool.and_eq_true, decide_eq_true_eq] at h
    rw [h.1.1, h.1.2, sameL_eq ks ks' h.2]
  | .text _, .elem _ _ _, h => by simp [sameX] at h
  | .elem _ _ _, .text _, h => by simp [sameX] at h
theorem sameL_eq : ∀ (a b : List X), sameL a b = true → a = b
  | [], [], _ => rfl
  | a :: l, b :: m, h => by
    simp only [sameL, Bool.and_eq_true] at h
    rw [sameX_eq a b h.1, sameL_eq l m h.2]
  | [], _ :: _, h => by simp [sameL] at h
  | _ :: _, [], h => by simp [sameL] at h
end

/-- The reader is between tags, outside of everything, and has read these nodes, the last first. -/
def reads (s : St) (ks : List X) : Bool :=
  match s.up, s.mode with
  | [], .text => sameL s.kids ks
  | _, _ => false

theorem reads_run {cs : Text} {k ks : List X} (h : reads (Xml.run ⟨k, [], .text⟩ cs) ks = true) (u) :
    Xml.run ⟨k, u, .text⟩ cs = ⟨ks, u, .text⟩ := by
  cases hr : Xml.run ⟨k, [], .text⟩ cs with
  | mk k' v m =>
    rw [hr] at h
    cases v with
    | cons a v => cases m <;> simp [reads] at h
    | nil =>
      cases m <;> simp only [reads, Bool.false_eq_true] at h
      have h1 := run_frame cs ⟨k, [], .text⟩ u (by rw [hr]; rfl)
      rw [hr, sameL_eq _ _ h] at h1
      exact h1

/-! ### Values and texts that are put in as they are -/

theorem run_rawVal (l up) (n : Text) (as) (a v w : Text) (h : plainVal w = true) :
    Xml.run ⟨l, up, .val n as a v⟩ w = ⟨l, up, .val n as a (v ++ w)⟩ := by
  induction w generalizing v with
  | nil => simp [run_nil]
  | cons c w ih =>
    rw [plainVal, List.all_cons, Bool.and_eq_true] at h
    have hc := h.1
    simp only [Bool.and_eq_true, bne_iff_ne, ne_eq] at hc
    have : (if blank c = true then ' ' else c) = c := by
      by_cases hs : c = ' '
      · subst hs; decide
      · have := hc.1.1.1
        simp only [Bool.or_eq_true, beq_iff_eq, hs, false_or, Bool.not_eq_true'] at this
        simp [this]
    rw [run_cons]
    have h1 : Xml.step ⟨l, up, .val n as a v⟩ c = ⟨l, up, .val n as a (v ++ [c])⟩ := by
      simp only [Xml.step, hc.1.1.2, hc.1.2, if_false, this]
    rw [h1, ih _ h.2, List.append_assoc]
    rfl

theorem run_rawText (l up) (d : Text) (h : plainText d = true) (hr : '\r' ∉ d) :
    Xml.run ⟨l, up, .text⟩ d = ⟨glue l d, up, .text⟩ := by
  induction d generalizing l with
  | nil => simp [run_nil, glue]
  | cons c d ih =>
    rw [plainText, List.all_cons, Bool.and_eq_true] at h
    have hc := h.1
    simp only [Bool.and_eq_true, bne_iff_ne, ne_eq] at hc
    have hcr : c ≠ '\r' := fun he => hr (by rw [he]; exact List.mem_cons_self)
    rw [run_cons]
    have h1 : Xml.step ⟨l, up, .text⟩ c = ⟨glue l [c], up, .text⟩ := by
      simp only [Xml.step, hc.1, hc.2, hcr, if_false]
    rw [h1, ih _ h.2 (fun hm => hr (List.mem_cons_of_mem _ hm)), Xml.glue_glue]
    rfl

/-! ### Tags -/

/-- Blanks between attributes. -/
theorem run_gap (l up) (n : Text) (as) (w : Text) (h : w.all blank = true) :
    Xml.run ⟨l, up, .gap n as⟩ w = ⟨l, up, .gap n as⟩ := by
  induction w with
  | nil => rfl
  | cons c w ih =>
    rw [List.all_cons, Bool.and_eq_true] at h
    rw [run_cons]
    have h1 : Xml.step ⟨l, up, .gap n as⟩ c = ⟨l, up, .gap n as⟩ := by
      have hb := h.1
      have h2 : c ≠ '>' := fun he => by rw [he] at hb; exact absurd hb (by decide)
      have h3 : c ≠ '/' := fun he => by rw [he] at hb; exact absurd hb (by decide)
      simp [Xml.step, h2, h3, hb]
    rw [h1, ih h.2]

/-- An attribute as the template has it. -/
theorem run_rawAttr (l up) (n : Text) (as) (a v : Text) (ha : nameOk a = true) (hv : plainVal v = true) :
    Xml.run ⟨l, up, .gap n as⟩ (attr a v) = ⟨l, up, .gap n (as ++ [(a, v)])⟩ := by
  cases a with
  | nil => simp [nameOk] at ha
  | cons c k =>
    simp only [nameOk, Bool.and_eq_true] at ha
    have hc : nameChar c = true ∧ k.all nameChar = true := by
      have := ha.2
      rwa [List.all_cons, Bool.and_eq_true] at this
    have hc1 := hc.1
    simp only [nameChar, Bool.and_eq_true, Bool.not_eq_true', bne_iff_ne, ne_eq] at hc1
    rw [attr]
    simp only [List.cons_append, List.append_assoc]
    rw [run_cons]
    have h1 : Xml.step ⟨l, up, .gap n as⟩ c = ⟨l, up, .attr n as [c]⟩ := by simp [Xml.step, hc1]
    rw [h1, run_append, run_attrName _ _ _ _ _ _ hc.2, run_append]
    have h2 : Xml.run ⟨l, up, .attr n as ([c] ++ k)⟩ "=\"".toList = ⟨l, up, .val n as (c :: k) []⟩ := rfl
    rw [h2, run_append, run_rawVal _ _ _ _ _ _ _ hv]
    simp [Xml.run, Xml.step]

theorem run_optAttr (l up) (n : Text) (as) (b a v e : Text) (hb : b.all blank = true) (he : e.all blank = true)
    (ha : nameOk a = true) (hv : plainVal v = true) :
    Xml.run ⟨l, up, .gap n as⟩ (optAttr b a v e) = ⟨l, up, .gap n (as ++ given a v)⟩ := by
  unfold optAttr given
  by_cases h : v = []
  · rw [if_pos h, if_pos h, run_nil, List.append_nil]
  · rw [if_neg h, if_neg h, run_append, run_append, run_gap _ _ _ _ _ hb, run_rawAttr _ _ _ _ _ _ ha hv, run_gap _ _ _ _ _ he]

theorem run_rawAttrs (l up) (n : Text) (as bs : List (Text × Text)) (w : Text) (hw : w.all blank = true)
    (h : bs.all (fun a => nameOk a.1 && plainVal a.2) = true) :
    Xml.run ⟨l, up, .gap n as⟩ (bs.flatMap (fun a => w ++ attr a.1 a.2)) = ⟨l, up, .gap n (as ++ bs)⟩ := by
  induction bs generalizing as with
  | nil => simp [run_nil]
  | cons b bs ih =>
    rw [List.all_cons, Bool.and_eq_true, Bool.and_eq_true] at h
    rw [List.flatMap_cons, run_append, run_append, run_gap _ _ _ _ _ hw, run_rawAttr _ _ _ _ _ _ h.1.1 h.1.2, ih _ h.2, List.append_assoc]
    rfl

/-- The end of an element. -/
theorem run_endTag (k l up) (n : Text) (bs) (hn : nameOk n = true) :
    Xml.run ⟨k, (n, bs, l) :: up, .text⟩ ('<' :: '/' :: n ++ ['>']) = ⟨.elem n bs k.reverse :: l, up, .text⟩ := by
  simp only [nameOk, Bool.and_eq_true] at hn
  rw [List.cons_append, List.cons_append, run_cons, run_cons]
  have h1 : Xml.step (Xml.step ⟨k, (n, bs, l) :: up, .text⟩ '<') '/' = ⟨k, (n, bs, l) :: up, .close []⟩ := by simp [Xml.step]
  rw [h1, run_append, Xml.run_close _ _ _ _ hn.2]
  simp [Xml.run, Xml.step]

/-! ### Numbers -/

theorem plainVal_digs (n : Nat) : plainVal (Time.digs n) = true := by
  have h := (Time.digs_props n).2.1
  rw [plainVal, List.all_eq_true]
  rw [List.all_eq_true] at h
  intro c hc
  have h1 := h c hc
  simp only [Time.isDig, decide_eq_true_eq] at h1
  have key : ∀ d : Char, (d.toNat < 48 ∨ 57 < d.toNat) → c ≠ d := by
    intro d hd he
    rw [he] at h1
    omega
  simp [blank, key ' ' (by decide), key '\n' (by decide), key '\t' (by decide), key '\r' (by decide), key '"' (by decide), key '&' (by decide),
    key '<' (by decide)]

/-! ### The lines of a text -/

/-- Texts with `br` elements in between. -/
def joinBr : List Text → Text
  | [] => []
  | [l] => l
  | l :: ls => l ++ brTag ++ joinBr ls

theorem splitLines_ne (t : Text) : splitLines t ≠ [] := by
  unfold splitLines
  split
  · simp
  · simp
  · simp
  · unfold onFirst
    split <;> simp
  · simp

theorem joinBr_cons (l : Text) {ls : List Text} (h : ls ≠ []) : joinBr (l :: ls) = l ++ brTag ++ joinBr ls := by
  cases ls with
  | nil => exact absurd rfl h
  | cons a ls => rfl

theorem joinBr_head (c : Char) (l : Text) (ls : List Text) : joinBr ((c :: l) :: ls) = c :: joinBr (l :: ls) := by
  cases ls <;> rfl

theorem areaVal_head (t : Text) (x : Text) : areaVal t ≠ '\n' :: x := by
  unfold areaVal
  split
  · simp
  · simp
  · next c cs h1 h2 =>
    intro h
    injection h with hc _
    exact h2 hc
  · simp

theorem brs_area : ∀ (n : Nat) (t : Text), t.length ≤ n → brs (areaVal t) = joinBr (splitLines t) := by
  intro n
  induction n with
  | zero =>
    intro t h
    rw [List.length_eq_zero_iff.1 (Nat.le_zero.1 h)]
    rfl
  | succ n ih =>
    intro t h
    match t with
    | [] => rfl
    | c :: cs =>
      have hl : cs.length ≤ n := by simpa using h
      by_cases h1 : c = '\n'
      · subst h1
        have e1 : areaVal ('\n' :: cs) = '\r' :: '\n' :: areaVal cs := by simp [areaVal]
        have e2 : splitLines ('\n' :: cs) = [] :: splitLines cs := by simp [splitLines]
        rw [e1, e2, joinBr_cons _ (splitLines_ne cs), ← ih cs hl]
        simp [brs]
      · by_cases h2 : c = '\r'
        · subst h2
          match cs, hl with
          | '\n' :: ds, hl =>
            have e1 : areaVal ('\r' :: '\n' :: ds) = '\r' :: '\n' :: areaVal ds := by simp [areaVal]
            have e2 : splitLines ('\r' :: '\n' :: ds) = [] :: splitLines ds := by simp [splitLines]
            rw [e1, e2, joinBr_cons _ (splitLines_ne ds), ← ih ds (by simp at hl; omega)]
            simp [brs]
          | [], _ => rfl
          | d :: ds, hl =>
            by_cases hd : d = '\n'
            · subst hd
              have e1 : areaVal ('\r' :: '\n' :: ds) = '\r' :: '\n' :: areaVal ds := by simp [areaVal]
              have e2 : splitLines ('\r' :: '\n' :: ds) = [] :: splitLines ds := by simp [splitLines]
              rw [e1, e2, joinBr_cons _ (splitLines_ne ds), ← ih ds (by simp at hl; omega)]
              simp [brs]
            · have e1 : areaVal ('\r' :: d :: ds) = '\r' :: areaVal (d :: ds) := by rw [areaVal] <;> simp [hd]
              have e2 : splitLines ('\r' :: d :: ds) = [] :: splitLines (d :: ds) := by rw [splitLines] <;> simp [hd]
              have e3 : brs ('\r' :: areaVal (d :: ds)) = brTag ++ brs (areaVal (d :: ds)) := by
                rw [brs]
                exact fun x hx => areaVal_head _ _ hx
              rw [e1, e2, joinBr_cons _ (splitLines_ne _), e3, ih _ hl, List.nil_append]
        · have e1 : areaVal (c :: cs) = c :: areaVal cs := by rw [areaVal] <;> simp [h1, h2]
          have e3 : brs (c :: areaVal cs) = c :: brs (areaVal cs) := by rw [brs] <;> simp [h1, h2]
          rw [e1, e3, ih cs hl]
          have e2 : splitLines (c :: cs) = onFirst c (splitLines cs) := by rw [splitLines] <;> simp [h1, h2]
          rw [e2]
          cases hs : splitLines cs with
          | nil => exact absurd hs (splitLines_ne cs)
          | cons l ls => exact (joinBr_head c l ls).symm

theorem splitLines_mem : ∀ (n : Nat) (t : Text), t.length ≤ n → ∀ l ∈ splitLines t, ∀ c ∈ l, c ∈ t ∧ c ≠ '\r' ∧ c ≠ '\n' := by
  intro n
  induction n with
  | zero =>
    intro t h
    rw [List.length_eq_zero_iff.1 (Nat.le_zero.1 h)]
    intro l hl c hc
    have : splitLines [] = [[]] := by simp [splitLines]
    rw [this, List.mem_singleton] at hl
    rw [hl] at hc
    cases hc
  | succ n ih =>
    intro t h
    unfold splitLines
    split
    · next cs =>
      intro l hl c hc
      rcases List.mem_cons.1 hl with hl | hl
      · rw [hl] at hc; cases hc
      · have := ih cs (by simp at h; omega) l hl c hc
        exact ⟨by simp [this.1], this.2⟩
    · next cs _ =>
      intro l hl c hc
      rcases List.mem_cons.1 hl with hl | hl
      · rw [hl] at hc; cases hc
      · have := ih cs (by simp at h; omega) l hl c hc
        exact ⟨by simp [this.1], this.2⟩
    · next cs =>
      intro l hl c hc
      rcases List.mem_cons.1 hl with hl | hl
      · rw [hl] at hc; cases hc
      · have := ih cs (by simp at h; omega) l hl c hc
        exact ⟨by simp [this.1], this.2⟩
    · next c cs h1 h2 h3 =>
      have hlen : cs.length ≤ n := by simpa using h
      unfold onFirst
      split
      · next l' ls hs =>
        intro l hl x hx
        rcases List.mem_cons.1 hl with hl | hl
        · rw [hl] at hx
          rcases List.mem_cons.1 hx with hx | hx
          · rw [hx]; exact ⟨by simp, h2, h3⟩
          · have := ih cs hlen l' (by rw [hs]; simp) x hx
            exact ⟨by simp [this.1], this.2⟩
        · have := ih cs hlen l (by rw [hs]; simp [hl]) x hx
          exact ⟨by simp [this.1], this.2⟩
      · intro l hl x hx
        rw [List.mem_singleton] at hl
        rw [hl, List.mem_singleton] at hx
        rw [hx]
        exact ⟨by simp, h2, h3⟩
    · intro l hl c hc
      rw [List.mem_singleton] at hl
      rw [hl] at hc
      cases hc

end Verif.Ui
