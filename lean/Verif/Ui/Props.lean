import Verif.Ui.Model

/-!
# Sequences and numbers on the user input page (C83)
-/
namespace Verif.Ui

open Verif.Xml (Text)

/-! ### Specification -/

/-- The numbers of the documents of a sequence, in the order they left. -/
def numbers (q : Text) (l : List (Nat × Data)) : List Nat := (l.filter (fun x => x.2.sid = q)).map (fun x => x.2.num)

/-- The page can send: its websocket is open, or will be and complains until then. -/
def Usable (p : Page) : Prop := ∃ k s, p.cur = some k ∧ p.socks[k]? = some s ∧ (s.ready = .open ∨ s.ready = .connecting)

/-- Events that can send a document. -/
def submits : Ev → Bool
  | .now | .enter | .space | .escape | .tick => true
  | _ => false

/-- Whatever is sent is sent with a connection. -/
def Online (before after : List Ev) : Prop :=
  ∀ a ev b, after = a ++ ev :: b → submits ev = true → Usable (run (before ++ a))

/-- The sequence is not created again and not removed. -/
def Kept (q : Text) (evs : List Ev) : Prop := ∀ ev ∈ evs, ev ≠ .resetAll ∧ ∀ s, ev ≠ .create q s

/-! ### What one event does -/

theorem snocInd {α : Type} {p : List α → Prop} (nil : p []) (snoc : ∀ l x, p l → p (l ++ [x])) : ∀ l, p l := by
  intro l
  have : ∀ l : List α, p l.reverse := by
    intro l
    induction l with
    | nil => exact nil
    | cons x l ih => rw [List.reverse_cons]; exact snoc _ _ ih
  have h := this l.reverse
  rwa [List.reverse_reverse] at h

theorem run_snoc (evs : List Ev) (ev : Ev) : run (evs ++ [ev]) = step (run evs) ev := by simp [run]

/-- What is on the page is what is stored; nothing is waiting for a timer. -/
def Inv (p : Page) : Prop := p.store = p.stored ∧ p.timers = []

theorem send_fields {p p' : Page} {d : Data} (h : p.send d = some p') :
    p'.store = p.store ∧ p'.stored = p.stored ∧ p'.timers = p.timers ∧ p'.cur = p.cur ∧ p'.socks = p.socks ∧ p'.selected = p.selected ∧
    p'.sending = p.sending ∧ p'.interval = p.interval ∧
    ((∃ k s, p.cur = some k ∧ p.socks[k]? = some s ∧ s.ready = .open ∧ p'.sent = p.sent ++ [(k, d)]) ∨
     (¬ Usable p ∧ p'.sent = p.sent)) := by
  unfold Page.send at h
  split at h
  · next hc =>
    injection h with h
    subst h
    refine ⟨rfl, rfl, rfl, rfl, rfl, rfl, rfl, rfl, .inr ⟨?_, rfl⟩⟩
    rintro ⟨k, s, hk, _⟩
    rw [hc] at hk
    cases hk
  · next k hc =>
    split at h
    · cases h
    · next sid hs =>
      injection h with h
      subst h
      exact ⟨rfl, rfl, rfl, rfl, rfl, rfl, rfl, rfl, .inl ⟨k, _, hc, hs, rfl, rfl⟩⟩
    · next hno1 hno2 =>
      injection h with h
      subst h
      refine ⟨rfl, rfl, rfl, rfl, rfl, rfl, rfl, rfl, .inr ⟨?_, rfl⟩⟩
      rintro ⟨k', s, hk, hs, hr⟩
      rw [hc] at hk
      injection hk with hk
      subst hk
      obtain ⟨sid, r⟩ := s
      rcases hr with hr | hr
      · simp only at hr
        rw [hr] at hs
        exact hno2 _ hs
      · simp only at hr
        rw [hr] at hs
        exact hno1 _ hs

/-- A submission: nothing happens, or a document of the selected sequence is sent, or not, and its number counted. -/
theorem submit_cases (p : Page) :
    p.submit = p ∨
    ∃ d, p.data = some d ∧ p.selected = some d.sid ∧ get d.sid p.store.nums = some d.num ∧
      p.submit.store = { p.store with nums := set d.sid (d.num + 1) p.store.nums } ∧
      p.submit.stored = { p.stored with nums := set d.sid (d.num + 1) p.store.nums } ∧ p.submit.timers = p.timers ∧
      p.submit.cur = p.cur ∧ p.submit.socks = p.socks ∧ p.submit.selected = p.selected ∧ p.submit.sending = p.sending ∧
      p.submit.interval = p.interval ∧
      ((∃ k s, p.cur = some k ∧ p.socks[k]? = some s ∧ s.ready = .open ∧ p.submit.sent = p.sent ++ [(k, d)]) ∨
       (¬ Usable p ∧ p.submit.sent = p.sent)) := by
  unfold Page.submit
  split
  · exact .inl rfl
  · next d hd =>
    split
    · exact .inl rfl
    · next p' hp =>
      right
      have hs := send_fields hp
      have hsel : p.selected = some d.sid ∧ get d.sid p.store.nums = some d.num := by
        unfold Page.data at hd
        split at hd
        · cases hd
        · next q hq =>
          split at hd
          · next s n _ hn =>
            injection hd with hd
            subst hd
            exact ⟨hq, hn⟩
          · cases hd
      refine ⟨d, hd, hsel.1, hsel.2, ?_, ?_, ?_, ?_, ?_, ?_, ?_, ?_, ?_⟩
      · simp only [Page.count, hs.1]
      · simp only [Page.count, hs.1, hs.2.1]
      · exact hs.2.2.1
      · exact hs.2.2.2.1
      · exact hs.2.2.2.2.1
      · exact hs.2.2.2.2.2.1
      · exact hs.2.2.2.2.2.2.1
      · exact hs.2.2.2.2.2.2.2.1
      · exact hs.2.2.2.2.2.2.2.2

/-- An event is a submission with changes to the text area only, or it sends nothing. -/
def sameBut (a b : Page) : Prop :=
  a.store = b.store ∧ a.stored = b.stored ∧ a.timers = b.timers ∧ a.sent = b.sent ∧ a.cur = b.cur ∧ a.socks = b.socks ∧ a.selected = b.selected

theorem sameBut_refl (a : Page) : sameBut a a := ⟨rfl, rfl, rfl, rfl, rfl, rfl, rfl⟩

theorem key_sameBut (p : Page) : sameBut p.key p ∨ sameBut p.key p.submit := by
  unfold Page.key
  by_cases h : p.sending = .live
  · rw [if_pos h, Page.sendDocument, h]
    exact .inr (sameBut_refl _)
  · rw [if_neg h]
    exact .inl (sameBut_refl _)

theorem step_submits (p : Page) (ev : Ev) (h : submits ev = true) : sameBut (step p ev) p ∨ sameBut (step p ev) p.submit := by
  cases ev <;> simp only [submits, Bool.false_eq_true] at h
  · -- now
    by_cases hl : p.sending = .live
    · right
      simp only [step, hl, if_true, Page.sendDocument]
      exact sameBut_refl _
    · left
      simp only [step, hl, if_false]
      exact sameBut_refl _
  · -- enter
    have hk := key_sameBut p
    simp only [step]
    split
    · exact hk
    · split <;> exact hk
  · exact key_sameBut p
  · exact key_sameBut p
  · -- tick
    by_cases hi : p.interval = true
    · right
      simp only [step, hi, if_true]
      exact sameBut_refl _
    · left
      simp only [step, hi]
      exact sameBut_refl _

/-- Other events send nothing and, but for the creation and removal of sequences, change no numbers. -/
theorem step_quiet (p : Page) (ev : Ev) (hi : Inv p) (h : submits ev = false) :
    (step p ev).sent = p.sent ∧
    ((∃ q s, ev = .create q s) ∨ ev = .resetAll ∨ (step p ev).store = p.store ∧ (step p ev).stored = p.stored) ∧ Inv (step p ev) := by
  cases ev <;> simp only [submits, Bool.true_eq_false] at h
  case create q s =>
    simp only [step]
    by_cases hq : q = []
    · rw [if_pos hq]; exact ⟨rfl, .inl ⟨_, _, rfl⟩, hi⟩
    · rw [if_neg hq]; exact ⟨rfl, .inl ⟨_, _, rfl⟩, rfl, hi.2⟩
  case select q =>
    simp only [step]
    split <;> exact ⟨rfl, .inr (.inr ⟨rfl, rfl⟩), hi⟩
  case resetAll => exact ⟨rfl, .inr (.inl rfl), rfl, hi.2⟩
  case reload => exact ⟨rfl, .inr (.inr ⟨hi.1.symm, rfl⟩), rfl, rfl⟩
  case mode m => exact ⟨rfl, .inr (.inr ⟨rfl, rfl⟩), hi⟩
  case schedule => exact ⟨rfl, .inr (.inr ⟨rfl, rfl⟩), hi⟩
  case start =>
    simp only [step]
    split <;> exact ⟨rfl, .inr (.inr ⟨rfl, rfl⟩), hi⟩
  case stop =>
    simp only [step]
    split <;> exact ⟨rfl, .inr (.inr ⟨rfl, rfl⟩), hi⟩
  case timer =>
    have : step p .timer = p := by simp only [step, hi.2]
    rw [this]
    exact ⟨rfl, .inr (.inr ⟨rfl, rfl⟩), hi⟩
  case connect =>
    simp only [step]
    split <;> exact ⟨rfl, .inr (.inr ⟨rfl, rfl⟩), hi⟩
  case disconnect =>
    simp only [step]
    split
    · split <;> exact ⟨rfl, .inr (.inr ⟨rfl, rfl⟩), hi⟩
    · exact ⟨rfl, .inr (.inr ⟨rfl, rfl⟩), hi⟩
  case opened k =>
    simp only [step]
    split <;> exact ⟨rfl, .inr (.inr ⟨rfl, rfl⟩), hi⟩
  case failed k =>
    simp only [step]
    split <;> exact ⟨rfl, .inr (.inr ⟨rfl, rfl⟩), hi⟩
  case closed k =>
    simp only [step]
    split
    · split <;> exact ⟨rfl, .inr (.inr ⟨rfl, rfl⟩), hi⟩
    · split <;> exact ⟨rfl, .inr (.inr ⟨rfl, rfl⟩), hi⟩
    · exact ⟨rfl, .inr (.inr ⟨rfl, rfl⟩), hi⟩
  case received k =>
    simp only [step]
    split <;> exact ⟨rfl, .inr (.inr ⟨rfl, rfl⟩), hi⟩
  case type => exact ⟨rfl, .inr (.inr ⟨rfl, rfl⟩), hi⟩
  case request m =>
    simp only [step]
    split
    · split
      · exact ⟨rfl, .inr (.inr ⟨rfl, rfl⟩), hi⟩
      · split <;> exact ⟨rfl, .inr (.inr ⟨rfl, rfl⟩), hi⟩
    · exact ⟨rfl, .inr (.inr ⟨rfl, rfl⟩), hi⟩

theorem submit_inv (p : Page) (h : Inv p) : Inv p.submit := by
  rcases submit_cases p with hs | ⟨d, _, _, _, h1, h2, h3, _⟩
  · rw [hs]; exact h
  · refine ⟨?_, by rw [h3]; exact h.2⟩
    rw [h1, h2, h.1]

theorem step_inv (p : Page) (ev : Ev) (h : Inv p) : Inv (step p ev) := by
  cases hs : submits ev with
  | false => exact (step_quiet p ev h hs).2.2
  | true =>
    rcases step_submits p ev hs with e | e
    · exact ⟨by rw [e.1, e.2.1]; exact h.1, by rw [e.2.2.1]; exact h.2⟩
    · have := submit_inv p h
      exact ⟨by rw [e.1, e.2.1]; exact this.1, by rw [e.2.2.1]; exact this.2⟩

theorem run_inv (evs : List Ev) : Inv (run evs) := by
  induction evs using snocInd with
  | nil => exact ⟨rfl, rfl⟩
  | snoc evs ev ih => rw [run_snoc]; exact step_inv _ _ ih

theorem get_set {α : Type} (k k' : Text) (v : α) (l : List (Text × α)) : get k (set k' v l) = if k' = k then some v else get k l := rfl

/-- What an event does to the number of a sequence that is kept, and which of its documents are sent. -/
theorem step_number (p : Page) (ev : Ev) (q : Text) (n : Nat) (hi : Inv p) (hk : ev ≠ .resetAll ∧ ∀ s, ev ≠ .create q s)
    (hn : get q p.store.nums = some n) :
    ∃ new, (step p ev).sent = p.sent ++ new ∧
      ((get q (step p ev).store.nums = some n ∧ numbers q new = []) ∨
       (get q (step p ev).store.nums = some (n + 1) ∧ submits ev = true ∧ (numbers q new = [n] ∨ (¬ Usable p ∧ numbers q new = [])))) := by
  cases hs : submits ev with
  | false =>
    obtain ⟨h1, h2, _⟩ := step_quiet p ev hi hs
    refine ⟨[], by rw [h1, List.append_nil], .inl ⟨?_, rfl⟩⟩
    rcases h2 with ⟨q', s, he⟩ | he | ⟨h2, _⟩
    · rw [he] at hk ⊢
      simp only [step]
      by_cases hq : q' = []
      · rw [if_pos hq]; exact hn
      · rw [if_neg hq]
        simp only [get_set]
        rw [if_neg (fun hqq => hk.2 s (by rw [hqq])), hn]
    · exact absurd he hk.1
    · rw [h2]; exact hn
  | true =>
    rcases step_submits p ev hs with e | e
    · exact ⟨[], by rw [e.2.2.2.1, List.append_nil], .inl ⟨by rw [e.1]; exact hn, rfl⟩⟩
    · rw [e.2.2.2.1, e.1]
      rcases submit_cases p with hp | ⟨d, _, _, hd, h1, _, _, _, _, _, _, _, h2⟩
      · exact ⟨[], by rw [hp, List.append_nil], .inl ⟨by rw [hp]; exact hn, rfl⟩⟩
      · by_cases hq : d.sid = q
        · rw [hq, hn] at hd
          injection hd with hd
          rcases h2 with ⟨k, s, _, _, _, h2⟩ | ⟨hu, h2⟩
          · refine ⟨[(k, d)], h2, .inr ⟨?_, rfl, .inl ?_⟩⟩
            · rw [h1]; simp only [get_set]; rw [if_pos hq, hd]
            · simp [numbers, hq, hd]
          · refine ⟨[], by rw [h2, List.append_nil], .inr ⟨?_, rfl, .inr ⟨hu, rfl⟩⟩⟩
            rw [h1]; simp only [get_set]; rw [if_pos hq, hd]
        · rcases h2 with ⟨k, s, _, _, _, h2⟩ | ⟨hu, h2⟩
          · refine ⟨[(k, d)], h2, .inl ⟨?_, ?_⟩⟩
            · rw [h1]; simp only [get_set]; rw [if_neg hq, hn]
            · simp [numbers, hq]
          · refine ⟨[], by rw [h2, List.append_nil], .inl ⟨?_, rfl⟩⟩
            rw [h1]; simp only [get_set]; rw [if_neg hq, hn]

/-! ### C83 -/

theorem numbers_append (q : Text) (a b : List (Nat × Data)) : numbers q (a ++ b) = numbers q a ++ numbers q b := by simp [numbers]

theorem kept_history (pre : List Ev) (q : Text) (s : Seq) (hq : q ≠ []) (post : List Ev) (hk : Kept q post) :
    ∃ new n, (run (pre ++ .create q s :: post)).sent = (run pre).sent ++ new ∧
      get q (run (pre ++ .create q s :: post)).store.nums = some n ∧ 1 ≤ n ∧
      (numbers q new).Pairwise (· < ·) ∧ (∀ m ∈ numbers q new, 1 ≤ m ∧ m < n) ∧
      (Online (pre ++ [.create q s]) post → numbers q new = (List.range (n - 1)).map (· + 1)) := by
  induction post using snocInd with
  | nil =>
    rw [run_snoc]
    refine ⟨[], 1, ?_, ?_, Nat.le_refl _, List.Pairwise.nil, by simp [numbers], fun _ => rfl⟩
    · rw [List.append_nil]; simp only [step, if_neg hq]
    · simp only [step, if_neg hq, get_set, if_true]
  | snoc post ev ih =>
    obtain ⟨new, n, h1, h2, h3, h4, h5, h6⟩ := ih (fun e he => hk e (List.mem_append.2 (.inl he)))
    have e1 : pre ++ .create q s :: (post ++ [ev]) = (pre ++ .create q s :: post) ++ [ev] := by simp
    rw [e1, run_snoc]
    obtain ⟨more, g1, g2⟩ := step_number (run (pre ++ .create q s :: post)) ev q n (run_inv _) (hk ev (by simp)) h2
    have hon : Online (pre ++ [.create q s]) (post ++ [ev]) → Online (pre ++ [.create q s]) post ∧
        (submits ev = true → Usable (run (pre ++ .create q s :: post))) := by
      intro h
      refine ⟨fun a e b hp => h a e (b ++ [ev]) (by rw [hp]; simp), fun hsub => ?_⟩
      have := h post ev [] rfl hsub
      simpa using this
    rcases g2 with ⟨g2, g3⟩ | ⟨g2, gs, g3⟩
    · refine ⟨new ++ more, n, by rw [g1, h1, List.append_assoc], g2, h3, ?_, ?_, ?_⟩
      · rw [numbers_append, g3, List.append_nil]; exact h4
      · rw [numbers_append, g3, List.append_nil]; exact h5
      · intro h; rw [numbers_append, g3, List.append_nil]; exact h6 (hon h).1
    · refine ⟨new ++ more, n + 1, by rw [g1, h1, List.append_assoc], g2, by omega, ?_, ?_, ?_⟩
      · rw [numbers_append]
        rcases g3 with g3 | ⟨_, g3⟩
        · rw [g3, List.pairwise_append]
          refine ⟨h4, List.pairwise_singleton _ _, ?_⟩
          intro a ha b hb
          rw [List.mem_singleton] at hb
          rw [hb]
          exact (h5 a ha).2
        · rw [g3, List.append_nil]; exact h4
      · rw [numbers_append]
        intro m hm
        rcases List.mem_append.1 hm with hm | hm
        · have := h5 m hm; omega
        · rcases g3 with g3 | ⟨_, g3⟩
          · rw [g3, List.mem_singleton] at hm; omega
          · rw [g3] at hm; cases hm
      · intro h
        have h' := hon h
        rw [numbers_append, h6 h'.1]
        rcases g3 with g3 | ⟨hu, _⟩
        · rw [g3]
          have : n + 1 - 1 = (n - 1) + 1 := by omega
          rw [this, List.range_succ, List.map_append]
          congr 1
          simp
          omega
        · exact absurd (h'.2 gs) hu

/-- **C83**, increasing numbers: from the creation of a sequence on, whatever else is done on the page — other sequences, connections that come
and go, the page loaded again — its documents leave with increasing numbers, each at most once. -/
theorem C83_increasing_partial (pre post : List Ev) (q : Text) (s : Seq) (hq : q ≠ []) (hk : Kept q post) :
    ∃ new, (run (pre ++ .create q s :: post)).sent = (run pre).sent ++ new ∧ (numbers q new).Pairwise (· < ·) ∧ ∀ m ∈ numbers q new, 1 ≤ m := by
  obtain ⟨new, n, h1, _, _, h4, h5, _⟩ := kept_history pre q s hq post hk
  exact ⟨new, h1, h4, fun m hm => (h5 m hm).1⟩

/-- **C83**, no gaps: if moreover documents are submitted only while the page has a connection, the numbers are 1, 2, 3 and so on. -/
theorem C83_consecutive_partial (pre post : List Ev) (q : Text) (s : Seq) (hq : q ≠ []) (hk : Kept q post) (ho : Online (pre ++ [.create q s]) post) :
    ∃ new m, (run (pre ++ .create q s :: post)).sent = (run pre).sent ++ new ∧ numbers q new = (List.range m).map (· + 1) := by
  obtain ⟨new, n, h1, _, _, _, _, h6⟩ := kept_history pre q s hq post hk
  exact ⟨new, n - 1, h1, h6 ho⟩

/-- The page is not pointed to another sequence while it has a connection, and has a sequence when it connects. -/
def Steady (evs : List Ev) : Prop :=
  ∀ a ev b, evs = a ++ ev :: b →
    (∀ q, ev = .select q → (run a).cur = none ∨ (run a).selected = some q) ∧
    (ev = .resetAll → (run a).cur = none) ∧
    (ev = .connect → (run a).selected ≠ none)

/-- The connection is for the selected sequence. -/
def OnIt (p : Page) : Prop := ∀ k, p.cur = some k → ∃ q, p.selected = some q ∧ p.socks[k]?.map Sock.sid = some q

theorem setReady_get (k j : Nat) (r : Ready) (l : List Sock) : (setReady k r l)[j]?.map Sock.sid = l[j]?.map Sock.sid := by
  unfold setReady
  rw [List.getElem?_modify]
  cases l[j]? with
  | none => rfl
  | some s =>
    by_cases h : k = j <;> simp [h]

/-- Every document left on a connection for its sequence. -/
def Own (p : Page) : Prop := ∀ x ∈ p.sent, p.socks[x.1]?.map Sock.sid = some x.2.sid

theorem onIt_ready {p : Page} (h : OnIt p) (k : Nat) (r : Ready) : ∀ j, p.cur = some j → ∃ q, p.selected = some q ∧ (setReady k r p.socks)[j]?.map Sock.sid = some q := by
  intro j hj
  rw [setReady_get]
  exact h j hj

theorem own_ready {p : Page} (h : Own p) (k : Nat) (r : Ready) : ∀ x ∈ p.sent, (setReady k r p.socks)[x.1]?.map Sock.sid = some x.2.sid := by
  intro x hx
  rw [setReady_get]
  exact h x hx

theorem submit_own (p : Page) (h : OnIt p) (ho : Own p) : OnIt p.submit ∧ Own p.submit := by
  rcases submit_cases p with hp | ⟨d, _, hsel, _, _, _, _, hc, hs, hse, _, _, h2⟩
  · rw [hp]; exact ⟨h, ho⟩
  · refine ⟨?_, ?_⟩
    · intro k hk
      rw [hc] at hk
      rw [hs, hse]
      exact h k hk
    · intro x hx
      rw [hs]
      rcases h2 with ⟨k, s, hk, hs', _, h2⟩ | ⟨_, h2⟩
      · rw [h2] at hx
        rcases List.mem_append.1 hx with hx | hx
        · exact ho x hx
        · rw [List.mem_singleton] at hx
          rw [hx]
          obtain ⟨q, h3, h4⟩ := h k hk
          rw [hsel] at h3
          rw [h4, h3]
      · rw [h2] at hx
        exact ho x hx

theorem own_grow {p : Page} (h : Own p) (s : Sock) : ∀ x ∈ p.sent, (p.socks ++ [s])[x.1]?.map Sock.sid = some x.2.sid := by
  intro x hx
  have h1 := h x hx
  have : x.1 < p.socks.length := by
    cases hp : p.socks[x.1]? with
    | none => rw [hp] at h1; cases h1
    | some t => exact (List.getElem?_eq_some_iff.1 hp).1
  rw [List.getElem?_append_left this]
  exact h1

theorem step_own (p : Page) (ev : Ev) (hi : Inv p) (h : OnIt p) (ho : Own p)
    (hsel : ∀ q, ev = .select q → p.cur = none ∨ p.selected = some q) (hres : ev = .resetAll → p.cur = none)
    (hcon : ev = .connect → p.selected ≠ none) :
    OnIt (step p ev) ∧ Own (step p ev) := by
  cases hs : submits ev with
  | true =>
    rcases step_submits p ev hs with e | e
    · refine ⟨fun k hk => ?_, fun x hx => ?_⟩
      · rw [e.2.2.2.2.2.2, e.2.2.2.2.2.1]; rw [e.2.2.2.2.1] at hk; exact h k hk
      · rw [e.2.2.2.2.2.1]; rw [e.2.2.2.1] at hx; exact ho x hx
    · have := submit_own p h ho
      refine ⟨fun k hk => ?_, fun x hx => ?_⟩
      · rw [e.2.2.2.2.2.2, e.2.2.2.2.2.1]; rw [e.2.2.2.2.1] at hk; exact this.1 k hk
      · rw [e.2.2.2.2.2.1]; rw [e.2.2.2.1] at hx; exact this.2 x hx
  | false =>
    cases ev <;> simp only [submits, Bool.true_eq_false] at hs
    case create q s =>
      simp only [step]
      by_cases hq : q = []
      · rw [if_pos hq]; exact ⟨h, ho⟩
      · rw [if_neg hq]
        refine ⟨fun k hk => ?_, ho⟩
        obtain ⟨q', h1, h2⟩ := h k hk
        refine ⟨q', ?_, h2⟩
        simp only [h1]
        rfl
    case select q =>
      simp only [step]
      by_cases hq : q ∈ p.store.options
      · rw [if_pos hq]
        refine ⟨fun k hk => ?_, ho⟩
        rcases hsel q rfl with hc | hc
        · rw [hc] at hk; cases hk
        · obtain ⟨q', h1, h2⟩ := h k hk
          rw [hc] at h1
          exact ⟨q', h1, h2⟩
      · rw [if_neg hq]; exact ⟨h, ho⟩
    case resetAll =>
      refine ⟨fun k hk => ?_, ho⟩
      have hk' : p.cur = some k := hk
      rw [hres rfl] at hk'
      cases hk'
    case reload =>
      refine ⟨fun k hk => (by cases hk), fun x hx => ?_⟩
      have := ho x hx
      simp only [step, List.getElem?_map, Option.map_map]
      exact this
    case mode m => exact ⟨h, ho⟩
    case schedule => exact ⟨h, ho⟩
    case start => simp only [step]; split <;> exact ⟨h, ho⟩
    case stop => simp only [step]; split <;> exact ⟨h, ho⟩
    case timer =>
      have : step p .timer = p := by simp only [step, hi.2]
      rw [this]
      exact ⟨h, ho⟩
    case connect =>
      simp only [step]
      by_cases hc : p.connected = true
      · rw [if_pos hc]; exact ⟨h, ho⟩
      · rw [if_neg hc]
        refine ⟨fun k hk => ?_, own_grow ho _⟩
        simp only [Option.some.injEq] at hk
        rw [← hk]
        simp only [List.getElem?_append_right (Nat.le_refl _), Nat.sub_self, List.getElem?_cons_zero, Option.map_some]
        cases hp : p.selected with
        | none => exact absurd hp (hcon rfl)
        | some q => exact ⟨q, rfl, rfl⟩
    case disconnect =>
      simp only [step]
      split
      · split
        · exact ⟨h, ho⟩
        · exact ⟨onIt_ready h _ _, own_ready ho _ _⟩
      · exact ⟨h, ho⟩
    case opened k =>
      simp only [step]
      split
      · exact ⟨onIt_ready h _ _, own_ready ho _ _⟩
      · exact ⟨h, ho⟩
    case failed k =>
      simp only [step]
      split
      · exact ⟨fun k hk => (by cases hk), own_ready ho _ _⟩
      · exact ⟨h, ho⟩
    case closed k =>
      simp only [step]
      split
      · split
        · exact ⟨fun k hk => (by cases hk), own_ready ho _ _⟩
        · exact ⟨onIt_ready h _ _, own_ready ho _ _⟩
      · split
        · exact ⟨fun k hk => (by cases hk), own_ready ho _ _⟩
        · exact ⟨onIt_ready h _ _, own_ready ho _ _⟩
      · exact ⟨h, ho⟩
    case received k =>
      simp only [step]
      split
      · exact ⟨onIt_ready h _ _, own_ready ho _ _⟩
      · exact ⟨h, ho⟩
    case type => exact ⟨h, ho⟩
    case request m =>
      simp only [step]
      split
      · split
        · exact ⟨h, ho⟩
        · split <;> exact ⟨h, ho⟩
      · exact ⟨h, ho⟩

/-- **C83**, own connection: if the page is not pointed to another sequence while it has a connection, every document leaves on a connection for
its own sequence. -/
theorem C83_own_connection_partial (evs : List Ev) (h : Steady evs) :
    ∀ x ∈ (run evs).sent, ∃ s, (run evs).socks[x.1]? = some s ∧ s.sid = x.2.sid := by
  have key : OnIt (run evs) ∧ Own (run evs) := by
    induction evs using snocInd with
    | nil => exact ⟨fun k hk => (by cases hk), fun x hx => (by cases hx)⟩
    | snoc evs ev ih =>
      have hpre : Steady evs := by
        intro a e b hab
        exact h a e (b ++ [ev]) (by rw [hab]; simp)
      have hl := h evs ev [] rfl
      obtain ⟨h1, h2⟩ := ih hpre
      rw [run_snoc]
      exact step_own _ ev (run_inv evs) h1 h2 hl.1 hl.2.1 hl.2.2
  intro x hx
  obtain ⟨s, hs, hq⟩ := Option.map_eq_some_iff.1 (key.2 x hx)
  exact ⟨s, hs, hq⟩

/-- **C83**, false for scheduled sending: when sending is scheduled and no interval runs, no event sends a document, and no document ever waits for
its time; the button has no handler. -/
theorem C83_false_scheduled (evs : List Ev) (ev : Ev) :
    (run evs).timers = [] ∧
    ((run evs).sending = .scheduled → (run evs).interval = false → (step (run evs) ev).sent = (run evs).sent) := by
  refine ⟨(run_inv evs).2, fun h1 h2 => ?_⟩
  have hl : (run evs).sending ≠ .live := by rw [h1]; decide
  have hk : (run evs).key = run evs := by unfold Page.key; rw [if_neg hl]
  cases hs : submits ev with
  | false => exact (step_quiet _ ev (run_inv evs) hs).1
  | true =>
    cases ev <;> simp only [submits, Bool.false_eq_true] at hs
    · simp only [step, hl, if_false]
    · simp only [step, hk]
      split
      · rfl
      · split <;> rfl
    · simp only [step, hk]
    · simp only [step, hk]
    · simp only [step, h2, Bool.false_eq_true, if_false]

/-! ### Examples and counterexamples -/

def exSeq : Seq := ⟨"media".toList, none, none⟩
def qa : Text := "a".toList
def qb : Text := "b".toList

/-- Two sequences; the page is loaded again in between. -/
def exPost : List Ev := [.connect, .opened 0, .now, .now, .create qb exSeq, .reload, .connect, .opened 1, .now, .disconnect]

example : qa ≠ [] ∧ Kept qa exPost ∧ numbers qa (run (.create qa exSeq :: exPost)).sent = [1, 2, 3] := by
  refine ⟨by decide, ?_, by decide +kernel⟩
  intro ev hev
  revert ev hev
  unfold exPost
  simp only [List.forall_mem_cons, List.not_mem_nil, false_implies, implies_true, and_true]
  simp [qa, qb]

/-! Checkers for the hypotheses on histories. -/

def usableB (p : Page) : Bool :=
  match p.cur with
  | none => false
  | some k => ((p.socks[k]?.map Sock.ready).map (fun r => decide (r = .open) || decide (r = .connecting))).getD false

theorem usableB_sound {p : Page} (h : usableB p = true) : Usable p := by
  unfold usableB at h
  split at h
  · cases h
  · next k hk =>
    cases hs : p.socks[k]? with
    | none => rw [hs] at h; cases h
    | some s =>
      rw [hs] at h
      simp only [Option.map_some, Option.getD_some, Bool.or_eq_true, decide_eq_true_eq] at h
      exact ⟨k, s, hk, hs, h⟩

def onlineB (p : Page) : List Ev → Bool
  | [] => true
  | ev :: evs => (!submits ev || usableB p) && onlineB (step p ev) evs

theorem onlineB_sound : ∀ (after before : List Ev), onlineB (run before) after = true → Online before after := by
  intro after
  induction after with
  | nil => intro before _ a ev b hab; cases a <;> cases hab
  | cons e after ih =>
    intro before h a ev b hab hs
    simp only [onlineB, Bool.and_eq_true, Bool.or_eq_true, Bool.not_eq_true'] at h
    rw [← run_snoc] at h
    cases a with
    | nil =>
      injection hab with h1 h2
      subst h1
      rw [hs] at h
      rw [List.append_nil]
      exact usableB_sound (h.1.resolve_left (by simp))
    | cons x a =>
      rw [List.cons_append] at hab
      injection hab with h1 h2
      have := ih (before ++ [e]) h.2 a ev b h2 hs
      rw [← h1]
      simpa using this

def okB (p : Page) : Ev → Bool
  | .select q => decide (p.cur = none) || decide (p.selected = some q)
  | .resetAll => decide (p.cur = none)
  | .connect => decide (p.selected ≠ none)
  | _ => true

def steadyB (p : Page) : List Ev → Bool
  | [] => true
  | ev :: evs => okB p ev && steadyB (step p ev) evs

theorem steadyB_sound : ∀ (after before : List Ev), steadyB (run before) after = true → ∀ a ev b, after = a ++ ev :: b → okB (run (before ++ a)) ev = true := by
  intro after
  induction after with
  | nil => intro before _ a ev b hab; cases a <;> cases hab
  | cons e after ih =>
    intro before h a ev b hab
    simp only [steadyB, Bool.and_eq_true] at h
    rw [← run_snoc] at h
    cases a with
    | nil =>
      injection hab with h1 h2
      rw [List.append_nil, ← h1]
      exact h.1
    | cons x a =>
      rw [List.cons_append] at hab
      injection hab with h1 h2
      have := ih (before ++ [e]) h.2 a ev b h2
      rw [← h1]
      simpa using this

theorem steady_of {evs : List Ev} (h : steadyB {} evs = true) : Steady evs := by
  intro a ev b hab
  have := steadyB_sound evs [] h a ev b hab
  rw [List.nil_append] at this
  refine ⟨fun q he => ?_, fun he => ?_, fun he => ?_⟩ <;> rw [he] at this <;> simpa [okB] using this

/-- The history of the example has a connection whenever something is sent, and keeps to its sequence. -/
example : Online ([] ++ [.create qa exSeq]) exPost := onlineB_sound exPost _ (by decide +kernel)
example : Steady (.create qa exSeq :: exPost) := steady_of (by decide +kernel)

/-- Without a connection numbers are counted although nothing is sent: the first document that leaves has number 2. -/
theorem C83_false_offline : numbers qa (run [.create qa exSeq, .now, .connect, .opened 0, .now]).sent = [2] := by decide +kernel

/-- A message from the server ends the connection, and the next document is counted but lost. -/
theorem C83_false_reply :
    numbers qa (run [.create qa exSeq, .connect, .opened 0, .now, .received 0, .now, .closed 0, .connect, .opened 1, .now]).sent = [1, 3] := by
  decide +kernel

/-- A sequence that is created again starts again at 1, on the same connection. -/
theorem C83_false_recreated :
    (run [.create qa exSeq, .connect, .opened 0, .now, .create qa exSeq, .now]).sent.map (fun x => (x.1, x.2.sid, x.2.num)) = [(0, qa, 1), (0, qa, 1)] := by
  decide +kernel

/-- Another sequence that is selected while there is a connection is sent on that connection. -/
theorem C83_false_selected :
    let p := run [.create qa exSeq, .create qb exSeq, .connect, .opened 0, .select qb, .now]
    p.sent.map (fun x => (x.1, x.2.sid)) = [(0, qb)] ∧ p.socks.map Sock.sid = [qa] := by
  decide +kernel

end Verif.Ui
