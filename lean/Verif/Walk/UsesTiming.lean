import Verif.Walk.Uses

/-
C90: timing validation as the traversal runs it does what its model says.
-/
namespace Verif.Walk

open Verif.Doc (Node Att Lab Comp)

mutual
/-- The computed times of the element at a place of a validated document. -/
def timesAt : Node Lab → Path → Option Comp
  | .elem x _, [] => some x.comp
  | .elem _ kids, i :: q => timesAtL kids i q
  | _, _ => none
def timesAtL : List (Node Lab) → Nat → Path → Option Comp
  | [], _, _ => none
  | k :: _, 0, q => timesAt k q
  | _ :: ks, i + 1, q => timesAtL ks i q
end

/-- After `n'` at `p` was validated: its elements have the times of `n'`, the times of all others are as they were. -/
def TimedAs (p : Path) (f f' : Path → Option Comp) (n' : Node Lab) : Prop :=
  (∀ q, ¬ p <+: q → f' q = f q) ∧ ∀ q c, timesAt n' q = some c → f' (p ++ q) = some c

def TimedAsL (p : Path) (i : Nat) (f f' : Path → Option Comp) (ns' : List (Node Lab)) : Prop :=
  (∀ q, (∀ j, i ≤ j → ¬ (p ++ [j]) <+: q) → f' q = f q) ∧ ∀ j q c, timesAtL ns' j q = some c → f' (p ++ (i + j) :: q) = some c

theorem setAt_self {α : Type} (f : Path → Option α) (p : Path) (x : α) : setAt f p x p = some x := by simp [setAt]

theorem setAt_ne {α : Type} (f : Path → Option α) {p q : Path} (x : α) (h : q ≠ p) : setAt f p x q = f q := by simp [setAt, h]

theorem not_prefix_longer (p : Path) (j : Nat) : ¬ (p ++ [j]) <+: p := by
  intro h
  have := h.length_le
  simp only [List.length_append, List.length_singleton] at this
  omega

theorem siblings {p q : Path} {i j : Nat} (h : (p ++ [i]) <+: q) (hij : i ≠ j) : ¬ (p ++ [j]) <+: q := by
  rintro ⟨v, hv⟩
  obtain ⟨u, hu⟩ := h
  rw [← hv, List.append_assoc, List.append_assoc] at hu
  have := List.append_cancel_left hu
  simp only [List.cons_append, List.nil_append, List.cons.injEq] at this
  exact hij this.1

/-- The children with the times they have now are, as far as times go, the validated ones. -/
theorem kidsNow_timed (f : Path → Option Comp) (p : Path) : ∀ (i : Nat) (ks : List (Node Att)) (ks' : List (Node Lab)),
    (∀ c c', Doc.validateL c ks = .ok (c', ks') → (∀ j q x, timesAtL ks' j q = some x → f (p ++ (i + j) :: q) = some x) →
      Doc.timedKids (kidsNow f p i (ofNodes ks)) = Doc.timedKids ks')
  | i, [], ks' => by
    intro c c' h _
    rw [Doc.validateL] at h
    injection h with h
    rw [← (Prod.mk.inj h).2]
    rfl
  | i, k :: ks, ks' => by
    intro c c' h hf
    rw [Doc.validateL] at h
    cases hk : Doc.validate c k with
    | error e => rw [hk] at h; simp [bind, Except.bind] at h
    | ok r =>
      obtain ⟨c1, k'⟩ := r
      rw [hk] at h
      simp only [bind, Except.bind] at h
      cases hl : Doc.validateL c1 ks with
      | error e => rw [hl] at h; simp at h
      | ok r =>
        obtain ⟨c2, l'⟩ := r
        rw [hl] at h
        simp only [pure, Except.pure, Except.ok.injEq, Prod.mk.injEq] at h
        obtain ⟨_, h⟩ := h
        subst h
        have ih := kidsNow_timed f p (i + 1) ks l' c1 c2 hl (by
          intro j q x hx
          have := hf (j + 1) q x (by rw [timesAtL]; exact hx)
          rw [show i + 1 + j = i + (j + 1) from by omega]
          exact this)
        rw [ofNodes, kidsNow]
        cases k with
        | text s =>
          rw [Doc.validate] at hk
          injection hk with hk
          rw [← (Prod.mk.inj hk).2, Doc.timedKids, ← ih]
          · rfl
          · intro x kids h; simp at h
        | br =>
          rw [Doc.validate] at hk
          injection hk with hk
          rw [← (Prod.mk.inj hk).2, Doc.timedKids, ← ih]
          · rfl
          · intro x kids h; simp at h
        | elem a kk =>
          have hk' : ∃ comp kk', k' = .elem ⟨a, comp⟩ kk' := by
            rw [Doc.validate] at hk
            simp only [bind, Except.bind] at hk
            split at hk
            · simp at hk
            · split at hk
              · simp at hk
              · simp only [pure, Except.pure, Except.ok.injEq, Prod.mk.injEq] at hk
                exact ⟨_, _, hk.2.symm⟩
          obtain ⟨comp, kk', hk'⟩ := hk'
          have h0 := hf 0 [] comp (by rw [hk', timesAtL, timesAt])
          rw [Nat.add_zero] at h0
          rw [hk', ofNode]
          simp only [Tree.val, h0, List.cons_append, List.nil_append, Doc.timedKids]
          rw [ih]

/-- `post` takes from the children their times only. -/
theorem post_times (c : Doc.Ctx) (a : Att) (cb : Int) (ce : Option Int) {ks ks' : List (Node Lab)} (h : Doc.timedKids ks = Doc.timedKids ks') :
    Doc.post c a cb ce ks = Doc.post c a cb ce ks' := by
  unfold Doc.post
  rw [h]

mutual
theorem timer_step (p : Path) : ∀ (n : Node Att) (c : Doc.Ctx) (f : Path → Option Comp),
    match Doc.validate c n with
    | .ok (c', n') => ∃ f', step timer false p (ofNode n) ⟨c, f⟩ = (.ok none, ⟨c', f'⟩) ∧ TimedAs p f f' n'
    | .error e => (step timer false p (ofNode n) ⟨c, f⟩).1 = .fail e
  | .text s, c, f => by
    rw [Doc.validate]
    exact ⟨f, by rw [ofNode, step]; rfl, fun _ _ => rfl, fun q c h => by simp [timesAt] at h⟩
  | .br, c, f => by
    rw [Doc.validate]
    exact ⟨f, by rw [ofNode, step]; rfl, fun _ _ => rfl, fun q c h => by simp [timesAt] at h⟩
  | .elem a kids, c, f => by
    have ih := timer_steps p 0 kids (Doc.pre c a).1 (setAt f p ⟨(Doc.pre c a).2.1, (Doc.pre c a).2.2⟩)
    rw [ofNode, step, if_pos (show timer.keep p (.node (.elem a) (ofNodes kids)) = true from rfl), Doc.validate]
    rw [show timer.before p (.node (.elem a) (ofNodes kids)) ⟨c, f⟩ =
      (.ok (), ⟨(Doc.pre c a).1, setAt f p ⟨(Doc.pre c a).2.1, (Doc.pre c a).2.2⟩⟩) from rfl]
    rcases hp : Doc.pre c a with ⟨c1, cb, ce⟩
    rw [hp] at ih
    simp only [andThen, Bool.false_eq_true, if_false]
    rw [show ∀ s, timer.process p (.node (.elem a) (ofNodes kids)) [] s = (.ok none, s) from fun _ => rfl]
    simp only [bind, Except.bind]
    cases hv : Doc.validateL c1 kids with
    | error e =>
      rw [hv] at ih
      simp only at ih ⊢
      rcases hs : steps timer false p 0 (ofNodes kids) ⟨c1, setAt f p ⟨cb, ce⟩⟩ with ⟨o, s⟩
      rw [hs] at ih
      have ih' : o = .fail e := ih
      rw [ih']
    | ok r =>
      obtain ⟨c2, kids'⟩ := r
      rw [hv] at ih
      obtain ⟨vs, f2, hs, hk1, hk2⟩ := ih
      simp only
      rw [hs]
      simp only
      have hown : f2 p = some ⟨cb, ce⟩ := by
        rw [hk1 p (fun j _ => not_prefix_longer p j), setAt_self]
      have hpost : Doc.post c2 a cb ce (kidsNow f2 p 0 (ofNodes kids)) = Doc.post c2 a cb ce kids' :=
        post_times _ _ _ _ (kidsNow_timed f2 p 0 kids kids' c1 c2 hv hk2)
      have haft : timer.after p (.node (.elem a) (ofNodes kids)) none vs ⟨c2, f2⟩ =
          match Doc.post c2 a cb ce kids' with
          | .ok r => (.ok (), ⟨r.1, setAt f2 p r.2⟩)
          | .error e => (.fail e, ⟨c2, f2⟩) := by
        rw [← hpost]
        simp only [timer, Tree.val, Tree.kids, hown]
        rfl
      rw [haft]
      cases hq : Doc.post c2 a cb ce kids' with
      | error e => rfl
      | ok r =>
        obtain ⟨c3, comp⟩ := r
        refine ⟨setAt f2 p comp, rfl, ?_, ?_⟩
        · intro q hq
          have hne : q ≠ p := fun h => hq (h ▸ List.prefix_refl _)
          rw [setAt_ne _ _ hne, hk1 q (fun j _ hj => hq ((List.prefix_append _ _).trans hj)), setAt_ne _ _ hne]
        · intro q c h
          cases q with
          | nil =>
            rw [timesAt] at h
            rw [List.append_nil, setAt_self]
            exact h
          | cons i q =>
            rw [timesAt] at h
            have := hk2 i q c h
            rw [Nat.zero_add] at this
            rw [setAt_ne _ _ (by
              intro he
              have := congrArg List.length he
              simp at this), this]
theorem timer_steps (p : Path) : ∀ (i : Nat) (ns : List (Node Att)) (c : Doc.Ctx) (f : Path → Option Comp),
    match Doc.validateL c ns with
    | .ok (c', ns') => ∃ vs f', steps timer false p i (ofNodes ns) ⟨c, f⟩ = (.ok vs, ⟨c', f'⟩) ∧ TimedAsL p i f f' ns'
    | .error e => (steps timer false p i (ofNodes ns) ⟨c, f⟩).1 = .fail e
  | i, [], c, f => by
    rw [Doc.validateL]
    exact ⟨[], f, by rw [ofNodes, steps], fun _ _ => rfl, fun j q c h => by simp [timesAtL] at h⟩
  | i, n :: ns, c, f => by
    have ih := timer_step (p ++ [i]) n c f
    rw [ofNodes, steps, Doc.validateL]
    simp only [bind, Except.bind]
    cases hv : Doc.validate c n with
    | error e =>
      rw [hv] at ih
      simp only at ih ⊢
      rcases hs : step timer false (p ++ [i]) (ofNode n) ⟨c, f⟩ with ⟨o, s⟩
      rw [hs] at ih
      have ih' : o = .fail e := ih
      rw [ih']
    | ok r =>
      obtain ⟨c1, n'⟩ := r
      rw [hv] at ih
      obtain ⟨f1, hs, h1, h2⟩ := ih
      have ih2 := timer_steps p (i + 1) ns c1 f1
      simp only
      rw [hs]
      simp only
      cases hvl : Doc.validateL c1 ns with
      | error e =>
        rw [hvl] at ih2
        simp only at ih2 ⊢
        rcases hs2 : steps timer false p (i + 1) (ofNodes ns) ⟨c1, f1⟩ with ⟨o, s⟩
        rw [hs2] at ih2
        have ih' : o = .fail e := ih2
        rw [ih']
        rfl
      | ok r =>
        obtain ⟨c2, ns'⟩ := r
        rw [hvl] at ih2
        obtain ⟨vs, f2, hs2, h3, h4⟩ := ih2
        refine ⟨_, f2, by rw [hs2]; rfl, ?_, ?_⟩
        · intro q hq
          rw [h3 q (fun j hj => hq j (by omega)), h1 q (hq i (Nat.le_refl _))]
        · intro j q c h
          cases j with
          | zero =>
            rw [timesAtL] at h
            have := h2 q c h
            rw [List.append_assoc] at this
            rw [Nat.add_zero, h3 _ (fun j hj => siblings (i := i) ⟨q, by simp⟩ (by omega))]
            exact this
          | succ j =>
            rw [timesAtL] at h
            have := h4 j q c h
            rw [show i + (j + 1) = i + 1 + j from by omega]
            exact this
end

/-- C90, timing: validation as the traversal runs it, whatever times the elements had before, gives every element the times of the
model, and fails where it fails. -/
theorem C90_timing (avail : Int) (body : Node Att) (f : Path → Option Comp) :
    (∀ n', Doc.validateDoc avail body = .ok n' → ∃ s, proceed timer false (ofNode body) ⟨Doc.initCtx avail, f⟩ = (.ok none, s) ∧
      ∀ q c, timesAt n' q = some c → s.comp q = some c) ∧
    ∀ e, Doc.validateDoc avail body = .error e → (proceed timer false (ofNode body) ⟨Doc.initCtx avail, f⟩).1 = .fail e := by
  have h := timer_step [] body (Doc.initCtx avail) f
  unfold Doc.validateDoc
  cases hv : Doc.validate (Doc.initCtx avail) body with
  | error e =>
    rw [hv] at h
    refine ⟨fun n' hn => by simp [Except.map] at hn, fun e' he => ?_⟩
    simp only [Except.map, Except.error.injEq] at he
    rw [← he]
    exact h
  | ok r =>
    obtain ⟨c, n⟩ := r
    rw [hv] at h
    obtain ⟨f', h1, _, h3⟩ := h
    refine ⟨fun n' hn => ?_, fun e' he => by simp [Except.map] at he⟩
    simp only [Except.map, Except.ok.injEq] at hn
    rw [← hn]
    exact ⟨⟨c, f'⟩, h1, fun q c hc => h3 q c hc⟩

end Verif.Walk
