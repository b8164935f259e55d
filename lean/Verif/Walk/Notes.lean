import Verif.Walk.Lemmas

/-
Helper lemmas for C90: outcomes and results.
-/
namespace Verif.Walk

variable {α σ τ ε β : Type}

/-! ### Traversals that correspond -/

def onState {γ : Type} (φ : σ → τ) (r : Out ε γ × σ) : Out ε γ × τ := (r.1, φ r.2)

theorem onState_andThen {γ δ : Type} (φ : σ → τ) (r : Out ε γ × σ) (k : γ → σ → Out ε δ × σ) (k' : γ → τ → Out ε δ × τ)
    (hk : ∀ v s, k' v (φ s) = onState φ (k v s)) : andThen (onState φ r) k' = onState φ (andThen r k) := by
  obtain ⟨o, s⟩ := r
  cases o with
  | ok v => exact hk v s
  | stop => rfl
  | fail e => rfl

/-- Hooks that do the same to corresponding states. -/
structure Corr (φ : σ → τ) (h : Hooks α σ ε β) (h' : Hooks α τ ε β) : Prop where
  keep : h'.keep = h.keep
  before : ∀ p t s, h'.before p t (φ s) = onState φ (h.before p t s)
  process : ∀ p t cs s, h'.process p t cs (φ s) = onState φ (h.process p t cs s)
  after : ∀ p t v cs s, h'.after p t v cs (φ s) = onState φ (h.after p t v cs s)
  other : ∀ p t s, h'.other p t (φ s) = onState φ (h.other p t s)

mutual
theorem step_corr {φ : σ → τ} {h : Hooks α σ ε β} {h' : Hooks α τ ε β} (c : Corr φ h h') (post : Bool) (p : Path) :
    ∀ (t : Tree α) (s : σ), step h' post p t (φ s) = onState φ (step h post p t s)
  | .node x ks, s => by
    rw [step, step, c.keep]
    by_cases hk : h.keep p (.node x ks) = true
    · rw [if_pos hk, if_pos hk, c.before]
      refine onState_andThen φ _ _ _ ?_
      intro _ s
      cases post with
      | true =>
        simp only [if_true]
        rw [steps_corr c true p 0 ks s]
        refine onState_andThen φ _ _ _ fun cs s => ?_
        rw [c.process]
        refine onState_andThen φ _ _ _ fun v s => ?_
        rw [c.after]
        exact onState_andThen φ _ _ _ fun _ s => rfl
      | false =>
        simp only [Bool.false_eq_true, if_false]
        rw [c.process]
        refine onState_andThen φ _ _ _ fun v s => ?_
        rw [steps_corr c false p 0 ks s]
        refine onState_andThen φ _ _ _ fun cs s => ?_
        rw [c.after]
        exact onState_andThen φ _ _ _ fun _ s => rfl
    · rw [if_neg hk, if_neg hk, c.other]
theorem steps_corr {φ : σ → τ} {h : Hooks α σ ε β} {h' : Hooks α τ ε β} (c : Corr φ h h') (post : Bool) (p : Path) :
    ∀ (i : Nat) (ts : List (Tree α)) (s : σ), steps h' post p i ts (φ s) = onState φ (steps h post p i ts s)
  | i, [], s => by rw [steps, steps]; rfl
  | i, k :: ks, s => by
    rw [steps, steps, step_corr c post (p ++ [i]) k s]
    rcases hq : step h post (p ++ [i]) k s with ⟨o, s'⟩
    cases o with
    | ok v =>
      simp only [onState]
      rw [steps_corr c post p (i + 1) ks s']
      exact onState_andThen φ _ _ _ fun _ s => rfl
    | stop =>
      simp only [onState]
      exact steps_corr c post p (i + 1) ks s'
    | fail e => rfl
end

theorem recorded_corr (h : Hooks α σ ε β) : Corr Prod.fst h.recorded h := ⟨rfl, fun _ _ _ => rfl, fun _ _ _ _ => rfl, fun _ _ _ _ _ => rfl, fun _ _ _ => rfl⟩

theorem noted_corr (h : Hooks α σ ε β) :
    Corr (fun s : σ × List (Note β) => (s.1, s.2.map (fun n => (n.call, n.ended)))) h.noted h.recorded := by
  refine ⟨rfl, fun p t s => ?_, fun p t cs s => ?_, fun p t v cs s => ?_, fun p t s => ?_⟩ <;>
    simp [Hooks.recorded, Hooks.noted, record, onState]

/-! ### Results -/

/-- The notes for the value at `p` and what is in it. -/
def Under (p : Path) (l : List (Note β)) : Prop := ∀ n ∈ l, n.call.under p = true

/-- What a call is given fits the notes before it. -/
def Fits (l : List (Note β)) (n : Note β) : Prop :=
  (n.call.which = .process → n.children = results l n.call.at_) ∧
  (n.call.which = .after → n.children = results l n.call.at_ ∧
    ∃ m ∈ l, m.call = ⟨.process, n.call.at_⟩ ∧ m.ended = .returned ∧ m.value = n.value)

/-- Everything that is given fits. -/
def Coherent (l : List (Note β)) : Prop := ∀ l₁ n l₂, l = l₁ ++ n :: l₂ → Fits l₁ n

theorem Coherent.nil : Coherent ([] : List (Note β)) := by
  intro l₁ n l₂ h
  simp at h

theorem Coherent.snoc {l : List (Note β)} {n : Note β} (h : Coherent l) (hn : Fits l n) : Coherent (l ++ [n]) := by
  intro l₁ m l₂ he
  rcases List.eq_nil_or_concat l₂ with h2 | ⟨l₃, b, h2⟩
  · rw [h2] at he
    have := List.append_inj' he rfl
    rw [← this.1, ← (List.cons.inj this.2).1]
    exact hn
  · rw [h2, List.concat_eq_append, ← List.cons_append, ← List.append_assoc] at he
    have := List.append_inj' he rfl
    exact h l₁ m l₃ this.1

theorem results_append (l m : List (Note β)) (p : Path) : results (l ++ m) p = results l p ++ results m p := by
  simp [results]

/-- Notes for `p` are not about its children. -/
theorem results_own (n : Note β) (p : Path) (h : n.call.at_ = p) : results [n] p = [] := by
  have : n.childOf p = false := by
    rw [Note.childOf, h]
    rcases List.eq_nil_or_concat p with hp | ⟨q, a, hp⟩
    · rw [hp]; rfl
    · rw [hp]
      simp only [List.concat_eq_append, List.dropLast_concat, Bool.and_eq_false_iff, beq_eq_false_iff_ne]
      right
      intro hc
      have := congrArg List.length hc
      simp at this
  simp [results, this]

theorem results_under {l : List (Note β)} {p q : Path} (hl : Under p l) (h : ¬ p <+: q) (hq : ∀ i, p ≠ q ++ [i]) : results l q = [] := by
  rw [results, List.filterMap_eq_nil_iff]
  intro n hn
  have hu := hl n hn
  rw [Call.under, List.isPrefixOf_iff_prefix] at hu
  have : n.childOf q = false := by
    rw [Note.childOf]
    rcases List.eq_nil_or_concat n.call.at_ with hp | ⟨r, a, hp⟩
    · rw [hp]; rfl
    · rw [hp]
      simp only [List.concat_eq_append, List.dropLast_concat, Bool.and_eq_false_iff, beq_eq_false_iff_ne]
      right
      intro hc
      rw [hp, List.concat_eq_append, hc] at hu
      rcases List.prefix_concat_iff.1 hu with he | he
      · exact hq a he
      · exact h he
  simp [this]

/-- Nothing noted so far is in the value at `p`. -/
def Fresh (p : Path) (l : List (Note β)) : Prop := ∀ n ∈ l, n.call.under p = false

theorem fresh_results {l : List (Note β)} {p : Path} (h : Fresh p l) : results l p = [] := by
  rw [results, List.filterMap_eq_nil_iff]
  intro n hn
  have hu := h n hn
  have : n.childOf p = false := by
    cases hc : n.childOf p with
    | false => rfl
    | true =>
      rw [Note.childOf, Bool.and_eq_true, beq_iff_eq] at hc
      rw [Call.under, ← hc.2] at hu
      have : n.call.at_.dropLast.isPrefixOf n.call.at_ = true := by
        rw [List.isPrefixOf_iff_prefix]; exact List.dropLast_prefix _
      rw [this] at hu
      exact absurd hu (by simp)
  simp [this]

/-- What a step leaves in the notes of its parent. -/
def given (o : Out ε (Option β)) : List β :=
  match o with
  | .ok v => v.toList
  | _ => []

/-- A step notes: what it is given fits, it is all in the value, and its result is that of the step. -/
structure Noted (p : Path) (L : List (Note β)) (r : Out ε (Option β) × (σ × List (Note β))) : Prop where
  ex : ∃ l, r.2.2 = L ++ l ∧ Under p l ∧ (∀ q i, p = q ++ [i] → results l q = given r.1) ∧
    (endOf r.1 = .stopped ↔ ∃ n ∈ l, n.call.at_ = p ∧ n.ended = .stopped) ∧ (endOf r.1 = .failed ↔ ∃ n ∈ l, n.ended = .failed)
  coh : Coherent r.2.2

/-- On the way through the value at `p`: the children so far gave `cs`, nothing was raised by a hook for the value itself, nothing failed. -/
structure Mid (p : Path) (L : List (Note β)) (cs : List β) (M : List (Note β)) : Prop where
  ex : ∃ l, M = L ++ l ∧ Under p l ∧ results l p = cs ∧ (∀ q i, p = q ++ [i] → results l q = []) ∧
    (∀ n ∈ l, n.call.at_ = p → n.ended = .returned) ∧ ∀ n ∈ l, n.ended ≠ .failed
  coh : Coherent M

theorem parent_of {p q : Path} {i : Nat} (h : p = q ++ [i]) : ¬ p <+: q := by
  intro hp
  have := hp.length_le
  rw [h, List.length_append, List.length_singleton] at this
  omega

theorem results_parent {n : Note β} {q : Path} {i : Nat} (h : n.call.at_ = q ++ [i]) :
    results [n] q = if n.completes = true then n.value.toList else [] := by
  have : n.childOf q = true := by
    rw [Note.childOf, h]
    simp
  simp only [results, this, Bool.true_and, List.filterMap_cons, List.filterMap_nil]
  by_cases hc : n.completes = true
  · rw [if_pos hc, if_pos hc]
    cases n.value <;> rfl
  · rw [if_neg hc, if_neg hc]

theorem under_one {p : Path} {n : Note β} (h : n.call.at_ = p) : n.call.under p = true := by
  rw [Call.under, h]; simp

theorem under_append {p : Path} {l m : List (Note β)} (hl : Under p l) (hm : Under p m) : Under p (l ++ m) := by
  intro n hn
  rcases List.mem_append.1 hn with h | h
  · exact hl n h
  · exact hm n h

theorem mid_results {p : Path} {L M : List (Note β)} {cs : List β} (hL : Fresh p L) (h : Mid p L cs M) : results M p = cs := by
  obtain ⟨⟨l, h1, _, h3, _⟩, _⟩ := h
  rw [h1, results_append, fresh_results hL, h3]; rfl

/-- A call for the value that returns and does not complete it. -/
theorem mid_snoc {p : Path} {L M : List (Note β)} {cs : List β} {n : Note β} (h : Mid p L cs M) (hp : n.call.at_ = p)
    (he : n.ended = .returned) (hc : n.completes = false) (hf : Fits M n) : Mid p L cs (M ++ [n]) := by
  obtain ⟨⟨l, h1, h2, h3, h4, h5, h6⟩, hcoh⟩ := h
  refine ⟨⟨l ++ [n], by rw [h1, List.append_assoc], ?_, ?_, ?_, ?_, ?_⟩, hcoh.snoc hf⟩
  · exact under_append h2 (fun m hm => by rw [List.mem_singleton] at hm; rw [hm]; exact under_one hp)
  · rw [results_append, h3, results_own n p hp, List.append_nil]
  · intro q i hq
    rw [results_append, h4 q i hq, results_parent (hp.trans hq), hc]; rfl
  · intro m hm
    rcases List.mem_append.1 hm with hm | hm
    · exact h5 m hm
    · rw [List.mem_singleton] at hm; rw [hm]; exact fun _ => he
  · intro m hm
    rcases List.mem_append.1 hm with hm | hm
    · exact h6 m hm
    · rw [List.mem_singleton] at hm; rw [hm, he]; simp

/-- A call that completes the value. -/
theorem noted_done {p : Path} {L M : List (Note β)} {cs : List β} {n : Note β} (s : σ) (h : Mid p L cs M) (hp : n.call.at_ = p)
    (he : n.ended = .returned) (hc : n.completes = true) (hf : Fits M n) :
    Noted (ε := ε) p L (.ok n.value, (s, M ++ [n])) := by
  obtain ⟨⟨l, h1, h2, h3, h4, h5, h6⟩, hcoh⟩ := h
  refine ⟨⟨l ++ [n], by rw [h1, List.append_assoc], ?_, ?_, ⟨fun h => (by simp [endOf] at h), ?_⟩, ⟨fun h => (by simp [endOf] at h), ?_⟩⟩, hcoh.snoc hf⟩
  · exact under_append h2 (fun m hm => by rw [List.mem_singleton] at hm; rw [hm]; exact under_one hp)
  · intro q i hq
    rw [results_append, h4 q i hq, results_parent (hp.trans hq), hc]; rfl
  · rintro ⟨m, hm, h7, h8⟩
    rcases List.mem_append.1 hm with hm | hm
    · rw [h5 m hm h7] at h8; simp at h8
    · rw [List.mem_singleton] at hm; rw [hm, he] at h8; simp at h8
  · rintro ⟨m, hm, h8⟩
    rcases List.mem_append.1 hm with hm | hm
    · exact absurd h8 (h6 m hm)
    · rw [List.mem_singleton] at hm; rw [hm, he] at h8; simp at h8

/-- A call that raises. -/
theorem noted_raised {p : Path} {L M : List (Note β)} {cs : List β} {n : Note β} (o : Out ε (Option β)) (s : σ) (h : Mid p L cs M)
    (hp : n.call.at_ = p) (he : n.ended = endOf o) (ho : o = .stop ∨ ∃ e, o = .fail e) (hf : Fits M n) :
    Noted p L (o, (s, M ++ [n])) := by
  obtain ⟨⟨l, h1, h2, h3, h4, h5, h6⟩, hcoh⟩ := h
  have hc : n.completes = false := by
    rw [Note.completes, he]
    rcases ho with ho | ⟨e, ho⟩ <;> rw [ho] <;> rfl
  refine ⟨⟨l ++ [n], by rw [h1, List.append_assoc], ?_, ?_, ?_, ?_⟩, hcoh.snoc hf⟩
  · exact under_append h2 (fun m hm => by rw [List.mem_singleton] at hm; rw [hm]; exact under_one hp)
  · intro q i hq
    rw [results_append, h4 q i hq, results_parent (hp.trans hq), hc]
    rcases ho with ho | ⟨e, ho⟩ <;> rw [ho] <;> rfl
  · constructor
    · intro h
      exact ⟨n, by simp, hp, he.trans h⟩
    · rintro ⟨m, hm, h7, h8⟩
      rcases List.mem_append.1 hm with hm | hm
      · rw [h5 m hm h7] at h8; simp at h8
      · rw [List.mem_singleton] at hm; rw [hm, he] at h8; exact h8
  · constructor
    · intro h
      exact ⟨n, by simp, he.trans h⟩
    · rintro ⟨m, hm, h8⟩
      rcases List.mem_append.1 hm with hm | hm
      · exact absurd h8 (h6 m hm)
      · rw [List.mem_singleton] at hm; rw [hm, he] at h8; exact h8

/-- The children from `i` on, noted. -/
def NotedL (p : Path) (L M : List (Note β)) (cs : List β) (r : Out ε (List β) × (σ × List (Note β))) : Prop :=
  match r.1 with
  | .ok vs => Mid p L (cs ++ vs) r.2.2 ∧ ∃ m, r.2.2 = M ++ m
  | .stop => False
  | .fail _ => (∃ l, r.2.2 = L ++ l ∧ Under p l ∧ (∀ q i, p = q ++ [i] → results l q = []) ∧
      (∀ n ∈ l, n.call.at_ = p → n.ended = .returned) ∧ ∃ n ∈ l, n.ended = .failed) ∧ Coherent r.2.2

/-- One child is added. -/
theorem mid_child {p : Path} {L M : List (Note β)} {cs : List β} {i : Nat} {r : Out ε (Option β) × (σ × List (Note β))}
    (h : Mid p L cs M) (hr : Noted (p ++ [i]) M r) :
    (endOf r.1 ≠ .failed → Mid p L (cs ++ given r.1) r.2.2) ∧
    (endOf r.1 = .failed → (∃ l, r.2.2 = L ++ l ∧ Under p l ∧ (∀ q i, p = q ++ [i] → results l q = []) ∧
      (∀ n ∈ l, n.call.at_ = p → n.ended = .returned) ∧ ∃ n ∈ l, n.ended = .failed) ∧ Coherent r.2.2) := by
  obtain ⟨⟨l, h1, h2, h3, h4, h5, h6⟩, hcoh⟩ := h
  obtain ⟨⟨m, g1, g2, g3, g4, g5⟩, hcoh'⟩ := hr
  have hu : Under p m := fun n hn => under_trans (g2 n hn)
  have hown : ∀ n ∈ m, n.call.at_ ≠ p := by
    intro n hn hp
    have := g2 n hn
    rw [Call.under, List.isPrefixOf_iff_prefix, hp] at this
    exact parent_of rfl this
  have hres : ∀ q j, p = q ++ [j] → results (l ++ m) q = [] := by
    intro q j hq
    rw [results_append, h4 q j hq, List.nil_append]
    refine results_under g2 ?_ ?_
    · intro hc
      have := hc.length_le
      rw [hq] at this
      simp only [List.length_append, List.length_singleton] at this
      omega
    · intro k hk
      have := congrArg List.length hk
      rw [hq] at this
      simp only [List.length_append, List.length_singleton] at this
      omega
  have hret : ∀ n ∈ l ++ m, n.call.at_ = p → n.ended = .returned := by
    intro n hn hp
    rcases List.mem_append.1 hn with h | h
    · exact h5 n h hp
    · exact absurd hp (hown n h)
  constructor
  · intro hf
    refine ⟨⟨l ++ m, by rw [g1, h1, List.append_assoc], under_append h2 hu, ?_, hres, hret, ?_⟩, hcoh'⟩
    · rw [results_append, h3, g3 p i rfl]
    · intro n hn hfail
      rcases List.mem_append.1 hn with h | h
      · exact h6 n h hfail
      · exact hf (g5.2 ⟨n, h, hfail⟩)
  · intro hf
    obtain ⟨n, hn, hfail⟩ := g5.1 hf
    exact ⟨⟨l ++ m, by rw [g1, h1, List.append_assoc], under_append h2 hu, hres, hret, n, List.mem_append_right _ hn, hfail⟩, hcoh'⟩

theorem fits_before (M : List (Note β)) (p : Path) (e : Ended) : Fits M ⟨⟨.before, p⟩, e, [], none⟩ :=
  ⟨fun h => (by simp at h), fun h => (by simp at h)⟩

theorem fits_other (M : List (Note β)) (p : Path) (e : Ended) (v : Option β) : Fits M ⟨⟨.other, p⟩, e, [], v⟩ :=
  ⟨fun h => (by simp at h), fun h => (by simp at h)⟩

theorem fits_process {M : List (Note β)} {p : Path} {cs : List β} (e : Ended) (v : Option β) (h : results M p = cs) :
    Fits M ⟨⟨.process, p⟩, e, cs, v⟩ := ⟨fun _ => h.symm, fun h => (by simp at h)⟩

/-- The `after` hook, once the value is processed and its children are gone through. -/
theorem after_noted (h : Hooks α σ ε β) (p : Path) (t : Tree α) (v : Option β) (cs : List β) (s : σ) (L M : List (Note β))
    (hL : Fresh p L) (hM : Mid p L cs M) (hv : ∃ m ∈ M, m.call = ⟨.process, p⟩ ∧ m.ended = .returned ∧ m.value = v) :
    Noted p L (andThen (h.noted.after p t v cs (s, M)) fun _ s => (.ok v, s)) := by
  have hf : ∀ e, Fits M ⟨⟨.after, p⟩, e, cs, v⟩ := fun e => ⟨fun h => (by simp at h), fun _ => ⟨(mid_results hL hM).symm, hv⟩⟩
  simp only [Hooks.noted]
  rcases hr : h.after p t v cs s with ⟨o, s'⟩
  cases o with
  | ok u => exact noted_done s' hM rfl rfl rfl (hf _)
  | stop => exact noted_raised .stop s' hM rfl rfl (.inl rfl) (hf _)
  | fail e => exact noted_raised (.fail e) s' hM rfl rfl (.inr ⟨e, rfl⟩) (hf _)

theorem notedL_fail {p : Path} {L : List (Note β)} {cs : List β} {e : ε} {s : σ} {M M' : List (Note β)}
    (h : NotedL p L M' cs (.fail e, (s, M))) : Noted p L (.fail e, (s, M)) := by
  obtain ⟨⟨l, h1, h2, h3, h4, h5⟩, hcoh⟩ := h
  refine ⟨⟨l, h1, h2, fun q i hq => h3 q i hq, ⟨fun h => (by simp [endOf] at h), ?_⟩, ⟨fun _ => h5, fun _ => rfl⟩⟩, hcoh⟩
  rintro ⟨n, hn, hp, hs⟩
  rw [h4 n hn hp] at hs
  simp at hs

mutual
theorem step_noted (h : Hooks α σ ε β) (post : Bool) (p : Path) : ∀ (t : Tree α) (s : σ) (L : List (Note β)), Fresh p L → Coherent L →
    Noted p L (step h.noted post p t (s, L))
  | .node x ks, s, L, hL, hcoh => by
    have m0 : Mid p L [] L := ⟨⟨[], by simp, fun _ hn => (by simp at hn), rfl, fun _ _ _ => rfl, fun _ hn => (by simp at hn), fun _ hn => (by simp at hn)⟩, hcoh⟩
    rw [step]
    by_cases hk : h.keep p (.node x ks) = true
    · rw [if_pos (show h.noted.keep p (.node x ks) = true from hk)]
      rcases hb : h.before p (.node x ks) s with ⟨o, s1⟩
      have e1 : h.noted.before p (.node x ks) (s, L) = (o, (s1, L ++ [⟨⟨.before, p⟩, endOf o, [], none⟩])) := by
        simp only [Hooks.noted, hb]
      rw [e1]
      cases o with
      | stop => exact noted_raised .stop s1 m0 rfl rfl (.inl rfl) (fits_before _ _ _)
      | fail e => exact noted_raised (.fail e) s1 m0 rfl rfl (.inr ⟨e, rfl⟩) (fits_before _ _ _)
      | ok u =>
        have m1 := mid_snoc (n := ⟨⟨.before, p⟩, .returned, [], none⟩) m0 rfl rfl rfl (fits_before _ _ _)
        have kidsFresh : ∀ (M : List (Note β)), (∀ n ∈ M, n.call.under p = false ∨ n.call.at_ = p) → ∀ j, 0 ≤ j → Fresh (p ++ [j]) M := by
          intro M hM j _ n hn
          cases hu : n.call.under (p ++ [j]) with
          | false => rfl
          | true =>
            exfalso
            rcases hM n hn with h | h
            · rw [under_trans hu] at h; exact absurd h (by simp)
            · rw [Call.under, List.isPrefixOf_iff_prefix, h] at hu
              exact parent_of rfl hu
        have own1 : ∀ n ∈ L ++ [(⟨⟨.before, p⟩, .returned, [], none⟩ : Note β)], n.call.under p = false ∨ n.call.at_ = p := by
          intro n hn
          rcases List.mem_append.1 hn with hn | hn
          · exact .inl (hL n hn)
          · rw [List.mem_singleton] at hn; rw [hn]; exact .inr rfl
        cases post with
        | true =>
          simp only [andThen, if_true, endOf]
          have hks := steps_noted h true p 0 ks s1 L [] _ m1 (kidsFresh _ own1)
          rcases hr : steps h.noted true p 0 ks (s1, L ++ [⟨⟨.before, p⟩, .returned, [], none⟩]) with ⟨o, s2, M⟩
          rw [hr] at hks
          try simp only [hr]
          cases o with
          | stop => exact absurd hks (by simp [NotedL])
          | fail e => exact notedL_fail hks
          | ok cs =>
            obtain ⟨m2, _⟩ : Mid p L cs M ∧ _ := hks
            try simp only
            rcases hpr : h.process p (.node x ks) cs s2 with ⟨o, s3⟩
            have e2 : h.noted.process p (.node x ks) cs (s2, M) = (o, (s3, M ++ [⟨⟨.process, p⟩, endOf o, cs, returnedValue o⟩])) := by
              simp only [Hooks.noted, hpr]
            rw [e2]
            have hf := fun e v => fits_process (cs := cs) e v (mid_results hL m2)
            cases o with
            | stop => exact noted_raised .stop s3 m2 rfl rfl (.inl rfl) (hf _ _)
            | fail e => exact noted_raised (.fail e) s3 m2 rfl rfl (.inr ⟨e, rfl⟩) (hf _ _)
            | ok v =>
              have m3 := mid_snoc (n := ⟨⟨.process, p⟩, .returned, cs, v⟩) m2 rfl rfl rfl (hf _ _)
              exact after_noted h p (.node x ks) v cs s3 L _ hL m3 ⟨_, List.mem_append_right _ (List.mem_singleton.2 rfl), rfl, rfl, rfl⟩
        | false =>
          simp only [andThen, Bool.false_eq_true, if_false, endOf]
          rcases hpr : h.process p (.node x ks) [] s1 with ⟨o, s2⟩
          have e2 : h.noted.process p (.node x ks) [] (s1, L ++ [⟨⟨.before, p⟩, .returned, [], none⟩]) =
              (o, (s2, L ++ [⟨⟨.before, p⟩, .returned, [], none⟩] ++ [⟨⟨.process, p⟩, endOf o, [], returnedValue o⟩])) := by
            simp only [Hooks.noted, hpr]
          rw [e2]
          have hf := fun e v => fits_process (cs := []) e v (mid_results hL m1)
          cases o with
          | stop => exact noted_raised .stop s2 m1 rfl rfl (.inl rfl) (hf _ _)
          | fail e => exact noted_raised (.fail e) s2 m1 rfl rfl (.inr ⟨e, rfl⟩) (hf _ _)
          | ok v =>
            have m2 := mid_snoc (n := ⟨⟨.process, p⟩, .returned, [], v⟩) m1 rfl rfl rfl (hf _ _)
            have own2 : ∀ n ∈ L ++ [(⟨⟨.before, p⟩, .returned, [], none⟩ : Note β)] ++ [⟨⟨.process, p⟩, .returned, [], v⟩],
                n.call.under p = false ∨ n.call.at_ = p := by
              intro n hn
              rcases List.mem_append.1 hn with hn | hn
              · exact own1 n hn
              · rw [List.mem_singleton] at hn; rw [hn]; exact .inr rfl
            simp only [returnedValue, endOf]
            have hks := steps_noted h false p 0 ks s2 L [] _ m2 (kidsFresh _ own2)
            rcases hr : steps h.noted false p 0 ks (s2, L ++ [⟨⟨.before, p⟩, .returned, [], none⟩] ++ [⟨⟨.process, p⟩, .returned, [], v⟩]) with ⟨o, s3, M⟩
            rw [hr] at hks
            try simp only [hr]
            cases o with
            | stop => exact absurd hks (by simp [NotedL])
            | fail e => exact notedL_fail hks
            | ok cs =>
              obtain ⟨m3, m, he⟩ : Mid p L cs M ∧ _ := hks
              exact after_noted h p (.node x ks) v cs s3 L _ hL m3
                ⟨_, (by rw [show M = _ from he]; exact List.mem_append_left _ (List.mem_append_right _ (List.mem_singleton.2 rfl))), rfl, rfl, rfl⟩
    · rw [if_neg (show ¬ h.noted.keep p (.node x ks) = true from hk)]
      simp only [Hooks.noted]
      rcases hr : h.other p (.node x ks) s with ⟨o, s'⟩
      cases o with
      | ok u => exact noted_done (n := ⟨⟨.other, p⟩, .returned, [], u⟩) s' m0 rfl rfl rfl (fits_other _ _ _ _)
      | stop => exact noted_raised .stop s' m0 rfl rfl (.inl rfl) (fits_other _ _ _ _)
      | fail e => exact noted_raised (.fail e) s' m0 rfl rfl (.inr ⟨e, rfl⟩) (fits_other _ _ _ _)
theorem steps_noted (h : Hooks α σ ε β) (post : Bool) (p : Path) : ∀ (i : Nat) (ts : List (Tree α)) (s : σ) (L : List (Note β)) (cs : List β)
    (M : List (Note β)), Mid p L cs M → (∀ j, i ≤ j → Fresh (p ++ [j]) M) → NotedL p L M cs (steps h.noted post p i ts (s, M))
  | i, [], s, L, cs, M, hM, _ => by
    rw [steps]
    show Mid p L (cs ++ []) M ∧ ∃ m, M = M ++ m
    rw [List.append_nil]
    exact ⟨hM, [], by simp⟩
  | i, k :: ks, s, L, cs, M, hM, hfr => by
    have hk := step_noted h post (p ++ [i]) k s M (hfr i (Nat.le_refl _)) hM.coh
    rw [steps]
    rcases hr : step h.noted post (p ++ [i]) k (s, M) with ⟨o, s', M'⟩
    rw [hr] at hk
    obtain ⟨c1, c2⟩ := mid_child hM hk
    have hfr' : ∀ j, i + 1 ≤ j → Fresh (p ++ [j]) M' := by
      intro j hj n hn
      obtain ⟨⟨m, g1, g2, _⟩, _⟩ := hk
      rw [show M' = M ++ m from g1] at hn
      rcases List.mem_append.1 hn with hn | hn
      · exact hfr j (by omega) n hn
      · exact not_under_both (by omega) (g2 n hn)
    cases o with
    | ok v =>
      have m1 : Mid p L (cs ++ v.toList) M' := c1 (by simp [endOf])
      have hrest := steps_noted h post p (i + 1) ks s' L _ M' m1 hfr'
      simp only
      rcases hr' : steps h.noted post p (i + 1) ks (s', M') with ⟨o', s'', M''⟩
      rw [hr'] at hrest
      cases o' with
      | ok vs =>
        obtain ⟨hm, m, he⟩ : Mid p L (cs ++ v.toList ++ vs) M'' ∧ ∃ m, M'' = M' ++ m := hrest
        obtain ⟨⟨m', g1, _⟩, _⟩ := hk
        show Mid p L (cs ++ (v.toList ++ vs)) M'' ∧ ∃ m, M'' = M ++ m
        rw [← List.append_assoc]
        exact ⟨hm, m' ++ m, by rw [he, show M' = M ++ m' from g1, List.append_assoc]⟩
      | stop => exact hrest
      | fail e => exact hrest
    | stop =>
      have m1 : Mid p L (cs ++ []) M' := c1 (by simp [endOf])
      rw [List.append_nil] at m1
      have hrest := steps_noted h post p (i + 1) ks s' L _ M' m1 hfr'
      simp only
      rcases hr' : steps h.noted post p (i + 1) ks (s', M') with ⟨o', s'', M''⟩
      rw [hr'] at hrest
      cases o' with
      | ok vs =>
        obtain ⟨hm, m, he⟩ : Mid p L (cs ++ vs) M'' ∧ ∃ m, M'' = M' ++ m := hrest
        obtain ⟨⟨m', g1, _⟩, _⟩ := hk
        exact ⟨hm, m' ++ m, by show M'' = _; rw [he, show M' = M ++ m' from g1, List.append_assoc]⟩
      | stop => exact hrest
      | fail e => exact hrest
    | fail e => exact c2 rfl
end

end Verif.Walk
