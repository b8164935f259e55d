import Verif.Walk.Spec

/-
Helper lemmas for C90.
-/
namespace Verif.Walk

variable {α σ ε β : Type}

abbrev Log := List (Call × Ended)

theorem under_self (w : Which) (p : Path) : Call.under p ⟨w, p⟩ = true := by
  simp [Call.under]

theorem under_trans {p : Path} {i : Nat} {c : Call} (h : c.under (p ++ [i]) = true) : c.under p = true := by
  simp only [Call.under, List.isPrefixOf_iff_prefix] at h ⊢
  exact List.IsPrefix.trans (List.prefix_append _ _) h

theorem not_under_both {p : Path} {i j : Nat} (h : i ≠ j) {c : Call} (hi : c.under (p ++ [i]) = true) : c.under (p ++ [j]) = false := by
  cases hj : c.under (p ++ [j]) with
  | false => rfl
  | true =>
    exfalso
    simp only [Call.under, List.isPrefixOf_iff_prefix] at hi hj
    obtain ⟨u, hu⟩ := hi
    obtain ⟨v, hv⟩ := hj
    rw [← hv, List.append_assoc, List.append_assoc] at hu
    have := List.append_cancel_left hu
    simp only [List.cons_append, List.nil_append, List.cons.injEq] at this
    exact h this.1

mutual
theorem tour_under (keep : Path → Tree α → Bool) (post : Bool) (p : Path) : ∀ t : Tree α, ∀ c ∈ tour keep post p t, c.under p = true
  | .node x ks => by
    intro c hc
    rw [tour] at hc
    split at hc
    · cases post with
      | true =>
        simp only [if_true, List.cons_append, List.append_assoc, List.mem_cons, List.mem_append, List.not_mem_nil, or_false, List.nil_append] at hc
        rcases hc with h | h | h | h
        · rw [h]; exact under_self _ _
        · obtain ⟨j, _, hj⟩ := tours_under keep true p 0 ks c h; exact under_trans hj
        · rw [h]; exact under_self _ _
        · rw [h]; exact under_self _ _
      | false =>
        simp only [Bool.false_eq_true, if_false, List.cons_append, List.mem_cons, List.mem_append, List.not_mem_nil, or_false] at hc
        rcases hc with h | h | h | h
        · rw [h]; exact under_self _ _
        · rw [h]; exact under_self _ _
        · obtain ⟨j, _, hj⟩ := tours_under keep false p 0 ks c h; exact under_trans hj
        · rw [h]; exact under_self _ _
    · rw [List.mem_singleton] at hc
      rw [hc]; exact under_self _ _
theorem tours_under (keep : Path → Tree α → Bool) (post : Bool) (p : Path) (i : Nat) : ∀ ts : List (Tree α), ∀ c ∈ tours keep post p i ts,
    ∃ j, i ≤ j ∧ c.under (p ++ [j]) = true
  | [] => by intro c hc; simp [tours] at hc
  | k :: ks => by
    intro c hc
    rw [tours, List.mem_append] at hc
    rcases hc with h | h
    · exact ⟨i, Nat.le_refl _, tour_under keep post (p ++ [i]) k c h⟩
    · obtain ⟨j, hj, hu⟩ := tours_under keep post p (i + 1) ks c h
      exact ⟨j, by omega, hu⟩
end

theorem filter_none {cs : List Call} {p : Path} (h : ∀ c ∈ cs, c.under p = false) : cs.filter (fun c => !c.under p) = cs := by
  rw [List.filter_eq_self]
  intro c hc
  rw [h c hc]; rfl

theorem filter_all {cs : List Call} {p : Path} (h : ∀ c ∈ cs, c.under p = true) : cs.filter (fun c => !c.under p) = [] := by
  rw [List.filter_eq_nil_iff]
  intro c hc
  rw [h c hc]; simp

theorem made_sublist (cs : List Call) (es : List Ended) : (made cs es).1.Sublist cs := by
  induction es generalizing cs with
  | nil => rw [made]; exact List.nil_sublist _
  | cons e es ih =>
    cases cs with
    | nil => rw [made]; exact List.Sublist.refl _
    | cons c cs =>
      cases e with
      | returned => rw [made]; exact (ih cs).cons_cons c
      | stopped => rw [made]; exact ((ih _).trans List.filter_sublist).cons_cons c
      | failed => rw [made]; exact (List.nil_sublist cs).cons_cons c

theorem own_not_in_kids {keep : Path → Tree α → Bool} {post : Bool} {p : Path} {i : Nat} {ks : List (Tree α)} (w : Which) :
    ⟨w, p⟩ ∉ tours keep post p i ks := by
  intro h
  obtain ⟨j, _, hj⟩ := tours_under _ _ _ _ _ _ h
  rw [Call.under, List.isPrefixOf_iff_prefix] at hj
  have := hj.length_le
  simp only [List.length_append, List.length_singleton] at this
  omega

mutual
theorem tour_nodup (keep : Path → Tree α → Bool) (post : Bool) (p : Path) : ∀ t : Tree α, (tour keep post p t).Nodup
  | .node x ks => by
    have hk := tours_nodup keep post p 0 ks
    rw [tour]
    split
    · cases post with
      | true =>
        simp only [if_true, List.cons_append, List.append_assoc, List.nil_append, List.nodup_cons, List.mem_append, List.mem_cons,
          List.not_mem_nil, or_false, List.nodup_append]
        refine ⟨?_, hk, by simp, ?_⟩
        · rintro (h | h | h)
          · exact own_not_in_kids _ h
          · simp at h
          · simp at h
        · intro a ha b hb hab
          rcases hb with hb | hb <;> rw [hab, hb] at ha <;> exact own_not_in_kids _ ha
      | false =>
        simp only [Bool.false_eq_true, if_false, List.cons_append, List.nodup_cons, List.mem_append, List.mem_cons,
          List.not_mem_nil, or_false, List.nodup_append]
        refine ⟨?_, ?_, hk, by simp, ?_⟩
        · rintro (h | h | h)
          · simp at h
          · exact own_not_in_kids _ h
          · simp at h
        · rintro (h | h)
          · exact own_not_in_kids _ h
          · simp at h
        · intro a ha b hb hab
          rw [hab, hb] at ha; exact own_not_in_kids _ ha
    · simp
theorem tours_nodup (keep : Path → Tree α → Bool) (post : Bool) (p : Path) (i : Nat) : ∀ ts : List (Tree α), (tours keep post p i ts).Nodup
  | [] => by rw [tours]; simp
  | k :: ks => by
    rw [tours, List.nodup_append]
    refine ⟨tour_nodup keep post (p ++ [i]) k, tours_nodup keep post p (i + 1) ks, ?_⟩
    intro a ha b hb hab
    rw [hab] at ha
    have h1 := tour_under _ _ _ _ _ ha
    obtain ⟨j, hj, h2⟩ := tours_under _ _ _ _ _ _ hb
    rw [not_under_both (by omega) h2] at h1
    exact absurd h1 (by simp)
end

/-- What remains after a step. -/
def onward (e : Ended) (rest : List Call) (os : List Ended) : List Call × List Call :=
  match e with
  | .failed => ([], [])
  | _ => made rest os

def Log.add (l : Log) (r : List Call × List Call) : List Call × List Call := (l.map Prod.fst ++ r.1, r.2)

theorem made_nil (rest : List Call) (os : List Ended) : Log.add [] (made rest os) = made rest os := rfl

theorem add_append (l m : Log) (r : List Call × List Call) : Log.add (l ++ m) r = Log.add l (Log.add m r) := by
  simp [Log.add]

theorem made_returned (c : Call) (rest : List Call) (os : List Ended) :
    made (c :: rest) (.returned :: os) = Log.add [(c, .returned)] (made rest os) := by
  rw [made]; rfl

theorem made_stopped {c : Call} {cs rest : List Call} (os : List Ended) (hcs : ∀ x ∈ cs, x.under c.at_ = true)
    (hr : ∀ x ∈ rest, x.under c.at_ = false) :
    made (c :: (cs ++ rest)) (.stopped :: os) = Log.add [(c, .stopped)] (made rest os) := by
  rw [made]
  simp only [List.filter_append, filter_all hcs, filter_none hr, List.nil_append]
  rfl

theorem made_failed (c : Call) (rest : List Call) (os : List Ended) :
    made (c :: rest) (.failed :: os) = Log.add [(c, .failed)] ([], []) := by
  rw [made]; rfl

/-- A run, recorded, does what it does unrecorded, and notes `l`. -/
structure Same {γ : Type} (r : Out ε γ × (σ × Log)) (q : Out ε γ × σ) (L l : Log) : Prop where
  out : r.1 = q.1
  st : r.2.1 = q.2
  log : r.2.2 = L ++ l

theorem record_same {γ : Type} (c : Call) (f : σ → Out ε γ × σ) (s : σ) (L : Log) :
    Same (record c f (s, L)) (f s) L [(c, endOf (f s).1)] := ⟨rfl, rfl, rfl⟩

/-- A recorded run of calls `cs` under `p`. -/
def Goes {γ : Type} (p : Path) (cs : List Call) (r : Out ε γ × (σ × Log)) (q : Out ε γ × σ) (L : Log) : Prop :=
  ∃ l, Same r q L l ∧ ∀ rest os, (∀ x ∈ rest, x.under p = false) →
    made (cs ++ rest) (l.map Prod.snd ++ os) = Log.add l (onward (endOf q.1) rest os)

/-- A recorded run of the children from `i` on: it does not stop. -/
def GoesL {γ : Type} (p : Path) (i : Nat) (cs : List Call) (r : Out ε γ × (σ × Log)) (q : Out ε γ × σ) (L : Log) : Prop :=
  q.1 ≠ .stop ∧ ∃ l, Same r q L l ∧ ∀ rest os, (∀ x ∈ rest, ∀ j, i ≤ j → x.under (p ++ [j]) = false) →
    made (cs ++ rest) (l.map Prod.snd ++ os) = Log.add l (onward (endOf q.1) rest os)

/-- One call of a hook, then others. -/
theorem goes_call {γ δ : Type} (p : Path) (w : Which) (f : σ → Out ε γ × σ) (cs : List Call) (hcs : ∀ x ∈ cs, x.under p = true)
    (k : γ → σ × Log → Out ε δ × (σ × Log)) (k' : γ → σ → Out ε δ × σ) (s : σ) (L : Log)
    (hk : ∀ v s L, Goes p cs (k v (s, L)) (k' v s) L) :
    Goes p (⟨w, p⟩ :: cs) (andThen (record ⟨w, p⟩ f (s, L)) k) (andThen (f s) k') L := by
  rcases hf : f s with ⟨o, s'⟩
  unfold record
  simp only [hf]
  cases o with
  | ok v =>
    obtain ⟨l, hs, hm⟩ := hk v s' (L ++ [(⟨w, p⟩, .returned)])
    refine ⟨(⟨w, p⟩, .returned) :: l, ⟨hs.out, hs.st, by rw [show (andThen _ _ : Out ε δ × (σ × Log)) = k v (s', L ++ [(⟨w, p⟩, .returned)]) from rfl, hs.log]; simp⟩, ?_⟩
    intro rest os hr
    rw [List.cons_append, List.map_cons, List.cons_append, made_returned, hm rest os hr, ← add_append]
    rfl
  | stop =>
    refine ⟨[(⟨w, p⟩, .stopped)], ⟨rfl, rfl, rfl⟩, ?_⟩
    intro rest os hr
    exact made_stopped os hcs hr
  | fail e =>
    refine ⟨[(⟨w, p⟩, .failed)], ⟨rfl, rfl, rfl⟩, ?_⟩
    intro rest os hr
    exact made_failed _ _ _

/-- The children, then calls for the element itself. -/
theorem goes_kids {γ δ : Type} (p : Path) (ks cs : List Call) (hcs : ∀ x ∈ cs, x.at_ = p)
    (r : Out ε γ × (σ × Log)) (q : Out ε γ × σ) (L : Log) (hrq : GoesL p 0 ks r q L)
    (k : γ → σ × Log → Out ε δ × (σ × Log)) (k' : γ → σ → Out ε δ × σ)
    (hk : ∀ v s L, Goes p cs (k v (s, L)) (k' v s) L) :
    Goes p (ks ++ cs) (andThen r k) (andThen q k') L := by
  obtain ⟨hns, l, hs, hm⟩ := hrq
  obtain ⟨o, s', L'⟩ := r
  obtain ⟨o', s''⟩ := q
  have h1 : o = o' := hs.out
  have h2 : s' = s'' := hs.st
  have h3 : L' = L ++ l := hs.log
  subst h1 h2 h3
  have own : ∀ x ∈ cs, ∀ j, x.under (p ++ [j]) = false := by
    intro x hx j
    cases hu : x.under (p ++ [j]) with
    | false => rfl
    | true =>
      exfalso
      rw [Call.under, List.isPrefixOf_iff_prefix, hcs x hx] at hu
      have := hu.length_le
      rw [List.length_append, List.length_singleton] at this
      omega
  have beyond : ∀ rest : List Call, (∀ x ∈ rest, x.under p = false) → ∀ x ∈ cs ++ rest, ∀ j, 0 ≤ j → x.under (p ++ [j]) = false := by
    intro rest hr x hx j _
    rcases List.mem_append.1 hx with h | h
    · exact own x h j
    · cases hu : x.under (p ++ [j]) with
      | false => rfl
      | true => rw [← hr x h, under_trans hu]
  cases o with
  | ok v =>
    obtain ⟨l', hs', hm'⟩ := hk v s' (L ++ l)
    refine ⟨l ++ l', ⟨hs'.out, hs'.st, by rw [show (andThen _ _ : Out ε δ × (σ × Log)) = k v (s', L ++ l) from rfl, hs'.log, List.append_assoc]⟩, ?_⟩
    intro rest os hr
    rw [List.append_assoc, List.map_append, List.append_assoc, hm _ _ (beyond rest hr)]
    simp only [endOf, onward]
    rw [hm' rest os hr, ← add_append]
    rfl
  | stop => exact absurd rfl hns
  | fail e =>
    refine ⟨l, ⟨rfl, rfl, rfl⟩, ?_⟩
    intro rest os hr
    rw [List.append_assoc, hm _ _ (beyond rest hr)]
    rfl

theorem goes_ok {γ : Type} (p : Path) (v : γ) (s : σ) (L : Log) : Goes (ε := ε) p [] (.ok v, (s, L)) (.ok v, s) L :=
  ⟨[], ⟨rfl, rfl, by simp⟩, fun _ _ _ => rfl⟩

mutual
theorem step_goes (h : Hooks α σ ε β) (post : Bool) (p : Path) : ∀ (t : Tree α) (s : σ) (L : Log),
    Goes p (tour h.keep post p t) (step h.recorded post p t (s, L)) (step h post p t s) L
  | .node x ks, s, L => by
    rw [tour, step, step]
    show Goes p _ (if h.keep p (.node x ks) = true then _ else _) _ L
    by_cases hk : h.keep p (.node x ks) = true
    · rw [if_pos hk, if_pos hk, if_pos hk]
      have ku : ∀ c ∈ tours h.keep post p 0 ks, c.under p = true := by
        intro c hc
        obtain ⟨j, _, hj⟩ := tours_under _ _ _ _ _ c hc
        exact under_trans hj
      cases post with
      | true =>
        simp only [if_true, List.cons_append, List.append_assoc, List.nil_append]
        refine goes_call p .before (h.before p (.node x ks)) _ ?_ _ _ s L ?_
        · intro c hc
          simp only [List.mem_append, List.mem_cons, List.not_mem_nil, or_false] at hc
          rcases hc with hc | hc | hc
          · exact ku c hc
          · rw [hc]; exact under_self _ _
          · rw [hc]; exact under_self _ _
        · intro _ s L
          refine goes_kids p _ _ (by intro c hc; simp at hc; rcases hc with hc | hc <;> rw [hc]) _ _ L (steps_goes h true p 0 ks s L) _ _ ?_
          intro cs s L
          refine goes_call p .process (h.process p (.node x ks) cs) _ (by intro c hc; rw [List.mem_singleton] at hc; rw [hc]; exact under_self _ _) _ _ s L ?_
          intro v s L
          exact goes_call p .after (h.after p (.node x ks) v cs) _ (by simp) _ _ s L (fun _ s L => goes_ok p v s L)
      | false =>
        simp only [Bool.false_eq_true, if_false, List.cons_append]
        refine goes_call p .before (h.before p (.node x ks)) _ ?_ _ _ s L ?_
        · intro c hc
          simp only [List.mem_cons, List.mem_append, List.not_mem_nil, or_false] at hc
          rcases hc with hc | hc | hc
          · rw [hc]; exact under_self _ _
          · exact ku c hc
          · rw [hc]; exact under_self _ _
        · intro _ s L
          refine goes_call p .process (h.process p (.node x ks) []) _ ?_ _ _ s L ?_
          · intro c hc
            simp only [List.mem_append, List.mem_singleton] at hc
            rcases hc with hc | hc
            · exact ku c hc
            · rw [hc]; exact under_self _ _
          · intro v s L
            refine goes_kids p _ _ (by intro c hc; simp at hc; rw [hc]) _ _ L (steps_goes h false p 0 ks s L) _ _ ?_
            intro cs s L
            exact goes_call p .after (h.after p (.node x ks) v cs) _ (by simp) _ _ s L (fun _ s L => goes_ok p v s L)
    · rw [if_neg hk, if_neg hk, if_neg hk]
      have := goes_call p .other (h.other p (.node x ks)) [] (by simp) (fun v s => (.ok v, s)) (fun v s => (.ok v, s)) s L (fun v s L => goes_ok p v s L)
      have e1 : ∀ (τ : Type) (r : Out ε (Option β) × τ), andThen r (fun v s => (Out.ok v, s)) = r := by
        intro τ r
        obtain ⟨o, t⟩ := r
        cases o <;> rfl
      rw [e1, e1] at this
      exact this
theorem steps_goes (h : Hooks α σ ε β) (post : Bool) (p : Path) : ∀ (i : Nat) (ts : List (Tree α)) (s : σ) (L : Log),
    GoesL p i (tours h.keep post p i ts) (steps h.recorded post p i ts (s, L)) (steps h post p i ts s) L
  | i, [], s, L => by
    rw [tours, steps, steps]
    exact ⟨by simp, [], ⟨rfl, rfl, by simp⟩, fun _ _ _ => rfl⟩
  | i, k :: ks, s, L => by
    rw [tours, steps, steps]
    obtain ⟨l, hs, hm⟩ := step_goes h post (p ++ [i]) k s L
    rcases hr : step h.recorded post (p ++ [i]) k (s, L) with ⟨o, s', L'⟩
    rcases hq : step h post (p ++ [i]) k s with ⟨o', s''⟩
    rw [hr, hq] at hs
    rw [hq] at hm
    have h1 : o = o' := hs.out
    have h2 : s' = s'' := hs.st
    have h3 : L' = L ++ l := hs.log
    subst h1 h2 h3
    have rest_ok : ∀ rest : List Call, (∀ x ∈ rest, ∀ j, i ≤ j → x.under (p ++ [j]) = false) →
        ∀ x ∈ tours h.keep post p (i + 1) ks ++ rest, x.under (p ++ [i]) = false := by
      intro rest hrest x hx
      rcases List.mem_append.1 hx with hx | hx
      · obtain ⟨j, hj, hu⟩ := tours_under _ _ _ _ _ x hx
        exact not_under_both (by omega) hu
      · exact hrest x hx i (Nat.le_refl _)
    cases o with
    | ok v =>
      obtain ⟨hns, l', hs', hm'⟩ := steps_goes h post p (i + 1) ks s' (L ++ l)
      rcases hr' : steps h.recorded post p (i + 1) ks (s', L ++ l) with ⟨a, t, M⟩
      rcases hq' : steps h post p (i + 1) ks s' with ⟨a', t'⟩
      rw [hr', hq'] at hs'
      rw [hq'] at hm' hns
      have h1 : a = a' := hs'.out
      have h2 : t = t' := hs'.st
      have h3 : M = L ++ l ++ l' := hs'.log
      subst h1 h2 h3
      simp only [hr', hq']
      cases a with
      | stop => exact absurd rfl hns
      | ok vs =>
        refine ⟨by simp [andThen], l ++ l', ⟨rfl, rfl, by simp [andThen]⟩, ?_⟩
        intro rest os hrest
        rw [List.append_assoc, List.map_append, List.append_assoc, hm _ _ (rest_ok rest hrest)]
        simp only [endOf, onward]
        rw [hm' rest os (fun x hx j hj => hrest x hx j (by omega)), ← add_append]
        rfl
      | fail e =>
        refine ⟨by simp [andThen], l ++ l', ⟨rfl, rfl, by simp [andThen]⟩, ?_⟩
        intro rest os hrest
        rw [List.append_assoc, List.map_append, List.append_assoc, hm _ _ (rest_ok rest hrest)]
        simp only [endOf, onward]
        rw [hm' rest os (fun x hx j hj => hrest x hx j (by omega)), ← add_append]
        rfl
    | stop =>
      obtain ⟨hns, l', hs', hm'⟩ := steps_goes h post p (i + 1) ks s' (L ++ l)
      refine ⟨hns, l ++ l', ⟨hs'.out, hs'.st, by simp only; rw [hs'.log, List.append_assoc]⟩, ?_⟩
      intro rest os hrest
      rw [List.append_assoc, List.map_append, List.append_assoc, hm _ _ (rest_ok rest hrest)]
      simp only [endOf, onward]
      rw [hm' rest os (fun x hx j hj => hrest x hx j (by omega)), ← add_append]
      rfl
    | fail e =>
      refine ⟨by simp, l, ⟨rfl, rfl, rfl⟩, ?_⟩
      intro rest os hrest
      rw [List.append_assoc, hm _ _ (rest_ok rest hrest)]
      rfl
end

end Verif.Walk
