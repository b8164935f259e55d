import Verif.Walk.Notes

/-
C90: an operation on a document goes through all of it in order.
-/
namespace Verif.Walk

variable {α σ ε β : Type}

/-- C90, the calls.  Whatever the hooks do and wherever they raise: the calls a traversal makes are those of the tour through the document,
in order, except that after a `StopBranchIteration` the rest of the calls for that value and what is in it are left out, and after
any other exception all are; no other call is left out. -/
theorem C90_calls (h : Hooks α σ ε β) (post : Bool) (t : Tree α) (s : σ) :
    made (tour h.keep post [] t) ((calls h post t s).map Prod.snd) = ((calls h post t s).map Prod.fst, []) := by
  obtain ⟨l, hs, hm⟩ := step_goes h post [] t s []
  have hl : calls h post t s = l := hs.log
  rw [hl]
  have := hm [] [] (by simp)
  rw [List.append_nil, List.append_nil] at this
  rw [this]
  unfold onward
  cases endOf (step h post [] t s).1 <;> simp [Log.add, made]

/-- Taking notes changes nothing: the calls are those of the operation itself. -/
theorem C90_observed (h : Hooks α σ ε β) (post : Bool) (t : Tree α) (s : σ) :
    (proceed h.recorded post t (s, [])).1 = (proceed h post t s).1 ∧ (proceed h.recorded post t (s, [])).2.1 = (proceed h post t s).2 ∧
    (notes h post t s).map (fun n => (n.call, n.ended)) = calls h post t s := by
  have h1 := step_corr (recorded_corr h) post [] t (s, [])
  have h2 := step_corr (noted_corr h) post [] t (s, [])
  refine ⟨?_, ?_, ?_⟩
  · rw [show proceed h post t s = _ from h1]; rfl
  · rw [show proceed h post t s = _ from h1]; rfl
  · show _ = (proceed h.recorded post t (s, [])).2.2
    rw [show proceed h.recorded post t (s, []) = _ from h2]
    rfl

/-- The tour has every value at most once per hook. -/
theorem C90_tour_once (keep : Path → Tree α → Bool) (post : Bool) (t : Tree α) : (tour keep post [] t).Nodup := tour_nodup keep post [] t

/-- C90, order: the calls are among those of the tour and in its order, so no hook is called twice for a value. -/
theorem C90_in_order (h : Hooks α σ ε β) (post : Bool) (t : Tree α) (s : σ) :
    ((calls h post t s).map Prod.fst).Sublist (tour h.keep post [] t) ∧ ((calls h post t s).map Prod.fst).Nodup := by
  have h1 : ((calls h post t s).map Prod.fst).Sublist (tour h.keep post [] t) := by
    have := made_sublist (tour h.keep post [] t) ((calls h post t s).map Prod.snd)
    rw [C90_calls] at this
    exact this
  exact ⟨h1, h1.nodup (C90_tour_once _ _ _)⟩

/-- C90, completeness: where no hook raises anything, the calls are the tour, so every selected element is begun, processed and ended. -/
theorem C90_everything (h : Hooks α σ ε β) (post : Bool) (t : Tree α) (s : σ)
    (hr : ∀ c ∈ calls h post t s, c.2 = .returned) : (calls h post t s).map Prod.fst = tour h.keep post [] t := by
  have h1 := C90_calls h post t s
  have h2 : ∀ (cs : List Call) (es : List Ended), (∀ e ∈ es, e = .returned) → ∀ l, made cs es = (l, []) → l = cs ∨ cs.length < es.length := by
    intro cs es
    induction es generalizing cs with
    | nil => intro _ l hl; rw [made] at hl; simp at hl; left; rw [hl.1, hl.2]
    | cons e es ih =>
      intro he l hl
      cases cs with
      | nil => right; simp
      | cons c cs =>
        rw [he e (by simp), made] at hl
        simp only [Prod.mk.injEq] at hl
        rcases ih cs (fun e' h' => he e' (by simp [h'])) (made cs es).1 (Prod.ext rfl hl.2) with h | h
        · left; rw [← hl.1, h]
        · right; simp only [List.length_cons]; omega
  rcases h2 _ _ (by intro e he; obtain ⟨c, hc, h⟩ := List.mem_map.1 he; rw [← h]; exact hr c hc) _ h1 with h3 | h3
  · exact h3
  · have := (C90_in_order h post t s).1.length_le
    rw [List.length_map] at this h3
    omega

/-- C90, exceptions: the operation fails exactly if a hook failed, with what that hook raised last, and `StopBranchIteration` gets out of it
exactly if a hook raised it for the root. -/
theorem C90_outcome (h : Hooks α σ ε β) (post : Bool) (t : Tree α) (s : σ) :
    (endOf (proceed h post t s).1 = .failed ↔ ∃ c, (c, Ended.failed) ∈ calls h post t s) ∧
    (endOf (proceed h post t s).1 = .stopped ↔ ∃ w, (⟨w, []⟩, Ended.stopped) ∈ calls h post t s) := by
  obtain ⟨h1, _, h3⟩ := C90_observed h post t s
  have h4 : (proceed h.noted post t (s, [])).1 = (proceed h post t s).1 := by
    have h2 := step_corr (noted_corr h) post [] t (s, [])
    rw [← h1, show proceed h.recorded post t (s, []) = _ from h2]; rfl
  obtain ⟨⟨l, hl, _, _, hst, hf⟩, _⟩ := step_noted h post [] t s [] (by intro n hn; simp at hn) Coherent.nil
  have hn : notes h post t s = l := hl
  rw [← h4, ← h3, hn]
  constructor
  · refine hf.trans ⟨?_, ?_⟩
    · rintro ⟨n, hn, he⟩; exact ⟨n.call, List.mem_map.2 ⟨n, hn, by rw [he]⟩⟩
    · rintro ⟨c, hc⟩
      obtain ⟨n, hn, he⟩ := List.mem_map.1 hc
      simp only [Prod.mk.injEq] at he
      exact ⟨n, hn, he.2⟩
  · refine hst.trans ⟨?_, ?_⟩
    · rintro ⟨n, hn, hp, he⟩
      refine ⟨n.call.which, List.mem_map.2 ⟨n, hn, ?_⟩⟩
      rw [he, ← hp]
    · rintro ⟨w, hc⟩
      obtain ⟨n, hn, he⟩ := List.mem_map.1 hc
      simp only [Prod.mk.injEq] at he
      exact ⟨n, hn, by rw [he.1], he.2⟩

/-- C90, results: when an element is processed or ended, the hook is given the results of those children that are completed by then, in order
and without those that have none; at the end these are all children that were not broken off, and it also gets what processing the
element gave. -/
theorem C90_results (h : Hooks α σ ε β) (post : Bool) (t : Tree α) (s : σ) (l₁ l₂ : List (Note β)) (n : Note β)
    (hn : notes h post t s = l₁ ++ n :: l₂) :
    (n.call.which = .process → n.children = results l₁ n.call.at_) ∧
    (n.call.which = .after → n.children = results l₁ n.call.at_ ∧
      ∃ m ∈ l₁, m.call = ⟨.process, n.call.at_⟩ ∧ m.ended = .returned ∧ m.value = n.value) :=
  (step_noted h post [] t s [] (by intro n hn; simp at hn) Coherent.nil).coh l₁ n l₂ hn

/-! ### A concrete case -/

/-- Hooks over numbers: 0 is text, 7 is left out by raising `StopBranchIteration`, 9 fails; the result of an element is its number. -/
def exHooks : Hooks Nat (List Nat) String Nat where
  keep := fun _ t => t.val != 0
  before := fun _ t s => if t.val = 7 then (.stop, s) else (.ok (), s)
  process := fun _ t _ s => if t.val = 9 then (.fail "nine", s) else (.ok (if t.val = 3 then none else some t.val), s ++ [t.val])
  after := fun _ _ _ _ s => (.ok (), s)
  other := fun _ _ s => (.ok none, s)

def exTree : Tree Nat := .node 1 [.node 2 [.node 0 [], .node 7 [.node 4 []], .node 5 []], .node 3 []]

example : (calls exHooks false exTree []).map (fun c => (c.1.which, c.1.at_)) =
    [(.before, []), (.process, []), (.before, [0]), (.process, [0]), (.other, [0, 0]), (.before, [0, 1]), (.before, [0, 2]),
     (.process, [0, 2]), (.after, [0, 2]), (.after, [0]), (.before, [1]), (.process, [1]), (.after, [1]), (.after, [])] := by decide +kernel

example : (proceed exHooks true exTree []).2 = [5, 2, 3, 1] := by decide +kernel

example : (notes exHooks true exTree []).map (·.children) = [[], [], [], [], [], [], [], [5], [5], [], [], [], [2], [2]] := by decide +kernel

/-- Leaving out: an element of which a hook raises `StopBranchIteration` after it was begun is not ended, so what its beginning changed
stays changed for the elements after it. -/
theorem C90_not_ended : ∃ (h : Hooks Nat (List Nat) String Nat) (t : Tree Nat),
    (⟨.before, [0]⟩, Ended.returned) ∈ calls h false t [] ∧ (⟨.process, [1]⟩, Ended.returned) ∈ calls h false t [] ∧
    (∀ e, (⟨.after, [0]⟩, e) ∉ calls h false t []) :=
  ⟨{ exHooks with process := fun _ t _ s => if t.val = 8 then (.stop, s) else (.ok none, s) }, .node 1 [.node 8 [], .node 2 []],
    by decide +kernel, by decide +kernel, by intro e; cases e <;> decide +kernel⟩

end Verif.Walk
