import Verif.Style.OrderSpec

/-
Lemmas about style reference resolution.
-/
namespace Verif.Style

/-! ### Lists -/

theorem length_le_of_nodup : ∀ {l m : List Name}, l.Nodup → (∀ x ∈ l, x ∈ m) → l.length ≤ m.length
  | [], _, _, _ => by simp
  | x :: xs, m, hn, hs => by
    have hx : x ∈ m := hs x (by simp)
    rw [List.nodup_cons] at hn
    have ih := length_le_of_nodup (l := xs) (m := m.erase x) hn.2 (by
      intro y hy
      have hne : y ≠ x := fun h => hn.1 (h ▸ hy)
      exact (List.mem_erase_of_ne hne).2 (hs y (List.mem_cons_of_mem _ hy)))
    rw [List.length_erase_of_mem hx] at ih
    have : 0 < m.length := List.length_pos_of_mem hx
    simp only [List.length_cons]
    omega

theorem mem_addNew : ∀ {l acc : List Name} {x : Name}, x ∈ addNew acc l ↔ x ∈ acc ∨ x ∈ l
  | [], acc, x => by simp [addNew]
  | y :: ys, acc, x => by
    rw [addNew]
    split
    · rw [mem_addNew (l := ys)]
      constructor
      · rintro (h | h)
        · exact Or.inl h
        · exact Or.inr (List.mem_cons_of_mem _ h)
      · rintro (h | h)
        · exact Or.inl h
        · rcases List.mem_cons.1 h with h | h
          · subst h; exact Or.inl ‹_›
          · exact Or.inr h
    · rw [mem_addNew (l := ys)]
      simp only [List.mem_append, List.mem_cons, List.not_mem_nil, or_false]
      constructor
      · rintro ((h | h) | h)
        · exact Or.inl h
        · exact Or.inr (Or.inl h)
        · exact Or.inr (Or.inr h)
      · rintro (h | h | h)
        · exact Or.inl (Or.inl h)
        · exact Or.inl (Or.inr h)
        · exact Or.inr h

theorem nodup_addNew : ∀ {l acc : List Name}, acc.Nodup → (addNew acc l).Nodup
  | [], acc, h => by simpa [addNew] using h
  | y :: ys, acc, h => by
    rw [addNew]
    split
    · exact nodup_addNew h
    · apply nodup_addNew
      rw [List.nodup_append]
      refine ⟨h, by simp, ?_⟩
      intro a ha b hb hab
      simp only [List.mem_singleton] at hb
      subst hb hab
      contradiction

theorem head_addNew : ∀ {l acc : List Name} {x : Name}, acc.head? = some x → (addNew acc l).head? = some x
  | [], acc, x, h => by simpa [addNew] using h
  | y :: ys, acc, x, h => by
    rw [addNew]
    split
    · exact head_addNew h
    · exact head_addNew (by simp [h])

theorem findSome_none {α : Type} {own : Name → Option α} {l : List Name} :
    l.findSome? own = none ↔ ∀ x ∈ l, own x = none := List.findSome?_eq_none_iff

theorem findSome_addNew {α : Type} (own : Name → Option α) :
    ∀ (l acc : List Name), (addNew acc l).findSome? own = (acc.findSome? own).or (l.findSome? own)
  | [], acc => by simp [addNew]
  | y :: ys, acc => by
    rw [addNew]
    split
    · rename_i hy
      rw [findSome_addNew own ys acc]
      cases h : acc.findSome? own with
      | some v => simp
      | none =>
        have := (findSome_none.1 h) y hy
        simp [this]
    · rw [findSome_addNew own ys (acc ++ [y]), List.findSome?_append]
      cases h : acc.findSome? own with
      | some v => simp
      | none =>
        cases hy : own y <;> simp [hy]

/-! ### Reachability -/

theorem Reaches.trans {sh : Sheet} {a b c : Name} (h : Reaches sh a b) (h' : Reaches sh b c) : Reaches sh a c := by
  induction h with
  | refl a => exact h'
  | step hr _ ih => exact .step hr (ih h')

theorem reaches_iff {sh : Sheet} {a x : Name} :
    Reaches sh a x ↔ x = a ∨ ∃ b, Refers sh a b ∧ Reaches sh b x := by
  constructor
  · intro h
    cases h with
    | refl => exact Or.inl rfl
    | step hr hx => exact Or.inr ⟨_, hr, hx⟩
  · rintro (h | ⟨b, hr, hx⟩)
    · subst h; exact .refl _
    · exact .step hr hx

theorem Gives.reached {α : Type} {sh : Sheet} {own : Name → Option α} {a : Name} {v : α} (h : Gives sh own a v) :
    ∃ x, Reaches sh a x ∧ own x = some v := by
  induction h with
  | own h => exact ⟨_, .refl _, h⟩
  | ref _ hf _ _ ih =>
    obtain ⟨x, hx, ho⟩ := ih
    exact ⟨x, .step ⟨_, hf, by simp⟩ hx, ho⟩

/-! ### What a correct result is -/

/-- `l` is the resolution of style `a`. -/
structure Good (sh : Sheet) (a : Name) (l : List Name) : Prop where
  nodup : l.Nodup
  head : l.head? = some a
  mem : ∀ x, x ∈ l ↔ Reaches sh a x
  noLoop : ¬ Loop sh a
  noDangling : ¬ Dangling sh a
  gives : ∀ (α : Type) (own : Name → Option α) (v : α), l.findSome? own = some v ↔ Gives sh own a v

/-- The cached results are correct. -/
def Sound (sh : Sheet) (c : Cache) : Prop := ∀ a l, c.get a = some l → Good sh a l

/-- Error `e` is justified when resolving `a`. -/
def Justified (sh : Sheet) (a : Name) : Err → Prop
  | .circle x => Reaches sh a x ∧ ∃ y, Refers sh x y ∧ Reaches sh y x
  | .missing x => Reaches sh a x ∧ find sh x = none
  | .fuel => False

/-- The outcome of resolving `a` while `locked` are being resolved. -/
def Outcome (sh : Sheet) (locked : List Name) (a : Name) (r : Except Err (List Name) × Cache) : Prop :=
  Sound sh r.2 ∧
  (∀ l, r.1 = .ok l → Good sh a l ∧ ∀ x ∈ l, x ∉ locked) ∧
  (∀ e, r.1 = .error e → Justified sh a e)

/-- Resolutions of a list of references, one for each. -/
inductive All (sh : Sheet) (locked : List Name) : List Name → List (List Name) → Prop
  | nil : All sh locked [] []
  | cons {r : Name} {rs : List Name} {l : List Name} {ls : List (List Name)} : Good sh r l → (∀ x ∈ l, x ∉ locked) →
      All sh locked rs ls → All sh locked (r :: rs) (l :: ls)

theorem refsLoop_spec {sh : Sheet} {locked : List Name} {step : Cache → Name → Except Err (List Name) × Cache} :
    ∀ {rs : List Name} {c : Cache} {acc : List Name}, (∀ r ∈ rs, ∀ c, Sound sh c → Outcome sh locked r (step c r)) → Sound sh c →
    Sound sh (refsLoop step c rs acc).2 ∧
    (∀ l, (refsLoop step c rs acc).1 = .ok l → ∃ ls, All sh locked rs ls ∧ l = ls.foldl addNew acc) ∧
    (∀ e, (refsLoop step c rs acc).1 = .error e → ∃ r ∈ rs, Justified sh r e)
  | [], c, acc, _, hc => by
    refine ⟨hc, ?_, ?_⟩
    · intro l hl
      simp only [refsLoop, Except.ok.injEq] at hl
      exact ⟨[], .nil, by simp [hl]⟩
    · intro e he; simp [refsLoop] at he
  | r :: rs, c, acc, hs, hc => by
    have h0 := hs r (by simp) c hc
    rw [refsLoop]
    rcases hst : step c r with ⟨o, c'⟩
    rw [hst] at h0
    cases o with
    | error e =>
      refine ⟨h0.1, ?_, ?_⟩
      · intro l hl; simp at hl
      · intro e' he'
        simp only [Except.error.injEq] at he'
        subst he'
        exact ⟨r, by simp, h0.2.2 e rfl⟩
    | ok l0 =>
      have ih := refsLoop_spec (sh := sh) (locked := locked) (step := step) (rs := rs) (c := c') (acc := addNew acc l0)
        (fun q hq => hs q (List.mem_cons_of_mem _ hq)) h0.1
      refine ⟨ih.1, ?_, ?_⟩
      · intro l hl
        obtain ⟨ls, hls, hl'⟩ := ih.2.1 l hl
        have := h0.2.1 l0 rfl
        exact ⟨l0 :: ls, .cons this.1 this.2 hls, by simpa using hl'⟩
      · intro e he
        obtain ⟨q, hq, hj⟩ := ih.2.2 e he
        exact ⟨q, List.mem_cons_of_mem _ hq, hj⟩

theorem foldl_addNew_nodup : ∀ {ls : List (List Name)} {acc : List Name}, acc.Nodup → (ls.foldl addNew acc).Nodup
  | [], _, h => h
  | l :: ls, acc, h => by
    rw [List.foldl_cons]; exact foldl_addNew_nodup (nodup_addNew h)

theorem foldl_addNew_head : ∀ {ls : List (List Name)} {acc : List Name} {x : Name}, acc.head? = some x →
    (ls.foldl addNew acc).head? = some x
  | [], _, _, h => h
  | l :: ls, acc, x, h => by
    rw [List.foldl_cons]; exact foldl_addNew_head (head_addNew h)

theorem foldl_addNew_mem : ∀ {ls : List (List Name)} {acc : List Name} {x : Name},
    x ∈ ls.foldl addNew acc ↔ x ∈ acc ∨ ∃ l ∈ ls, x ∈ l
  | [], _, _ => by simp
  | l :: ls, acc, x => by
    rw [List.foldl_cons, foldl_addNew_mem, mem_addNew]
    simp only [List.mem_cons, exists_eq_or_imp]
    exact or_assoc

theorem foldl_addNew_find {α : Type} (own : Name → Option α) : ∀ (ls : List (List Name)) (acc : List Name),
    (ls.foldl addNew acc).findSome? own = (acc.findSome? own).or (ls.findSome? (fun l => l.findSome? own))
  | [], acc => by simp
  | l :: ls, acc => by
    rw [List.foldl_cons, foldl_addNew_find own ls, findSome_addNew, List.findSome?_cons]
    cases acc.findSome? own with
    | some v => simp
    | none =>
      cases h : l.findSome? own with
      | some v => simp
      | none => simp

theorem All.mem_iff {sh : Sheet} {locked : List Name} {rs : List Name} {ls : List (List Name)} (h : All sh locked rs ls)
    {x : Name} : (∃ l ∈ ls, x ∈ l) ↔ ∃ r ∈ rs, Reaches sh r x := by
  induction h with
  | nil => simp
  | cons hg _ _ ih =>
    simp only [List.mem_cons, exists_eq_or_imp, ih, hg.mem]

theorem All.find_iff {α : Type} {sh : Sheet} {locked : List Name} {rs : List Name} {ls : List (List Name)} (h : All sh locked rs ls)
    (own : Name → Option α) {v : α} :
    ls.findSome? (fun l => l.findSome? own) = some v ↔ GivesList sh own rs v := by
  induction h with
  | nil =>
    constructor
    · intro h; simp at h
    · rintro ⟨pre, b, post, h, _⟩; simp at h
  | @cons r rs l ls hg _ _ ih =>
    rw [List.findSome?_cons]
    cases hf : l.findSome? own with
    | some w =>
      have hgw := (hg.gives α own w).1 hf
      constructor
      · intro h
        simp only [Option.some.injEq] at h
        subst h
        exact ⟨[], r, rs, rfl, by simp, hgw⟩
      · rintro ⟨pre, b, post, heq, hpre, hb⟩
        cases pre with
        | nil =>
          simp only [List.nil_append, List.cons.injEq] at heq
          rw [← heq.1] at hb
          have := (hg.gives α own v).2 hb
          rw [hf] at this
          exact this
        | cons p ps =>
          simp only [List.cons_append, List.cons.injEq] at heq
          obtain ⟨x, hx, ho⟩ := hgw.reached
          have := hpre p (by simp) x (heq.1 ▸ hx)
          rw [ho] at this
          exact absurd this (by simp)
    | none =>
      show ls.findSome? (fun l => l.findSome? own) = some v ↔ _
      rw [ih]
      have hnone : ∀ x, Reaches sh r x → own x = none := fun x hx => (findSome_none.1 hf) x ((hg.mem x).2 hx)
      constructor
      · rintro ⟨pre, b, post, heq, hpre, hb⟩
        refine ⟨r :: pre, b, post, by simp [heq], ?_, hb⟩
        intro c hc
        rcases List.mem_cons.1 hc with h | h
        · subst h; exact hnone
        · exact hpre c h
      · rintro ⟨pre, b, post, heq, hpre, hb⟩
        cases pre with
        | nil =>
          simp only [List.nil_append, List.cons.injEq] at heq
          obtain ⟨x, hx, ho⟩ := hb.reached
          have := hnone x (heq.1 ▸ hx)
          rw [ho] at this
          exact absurd this (by simp)
        | cons p ps =>
          simp only [List.cons_append, List.cons.injEq] at heq
          exact ⟨ps, b, post, heq.2, fun c hc => hpre c (List.mem_cons_of_mem _ hc), hb⟩

theorem All.good {sh : Sheet} {locked : List Name} {rs : List Name} {ls : List (List Name)} (h : All sh locked rs ls)
    {r : Name} (hr : r ∈ rs) : ∃ l ∈ ls, Good sh r l ∧ ∀ x ∈ l, x ∉ locked := by
  induction h with
  | nil => simp at hr
  | cons hg hd _ ih =>
    rcases List.mem_cons.1 hr with h | h
    · subst h; exact ⟨_, by simp, hg, hd⟩
    · obtain ⟨l, hl, hh⟩ := ih h
      exact ⟨l, List.mem_cons_of_mem _ hl, hh⟩

/-- The resolution of a style from the resolutions of its references. -/
theorem good_of_refs {sh : Sheet} {locked : List Name} {a : Name} {refs : List Name} {ls : List (List Name)}
    (hf : find sh a = some refs) (h : All sh (a :: locked) refs ls) : Good sh a (ls.foldl addNew [a]) := by
  have hmem : ∀ x, x ∈ ls.foldl addNew [a] ↔ Reaches sh a x := by
    intro x
    rw [foldl_addNew_mem, h.mem_iff, reaches_iff]
    simp only [List.mem_singleton]
    refine or_congr Iff.rfl ?_
    constructor
    · rintro ⟨r, hr, hx⟩; exact ⟨r, ⟨refs, hf, hr⟩, hx⟩
    · rintro ⟨r, ⟨rr, hrr, hr⟩, hx⟩
      rw [hf, Option.some.injEq] at hrr
      exact ⟨r, hrr ▸ hr, hx⟩
  have hrefs : ∀ {b}, Refers sh a b → b ∈ refs := by
    rintro b ⟨rr, hrr, hb⟩
    rw [hf, Option.some.injEq] at hrr
    exact hrr ▸ hb
  have hnotback : ∀ {b}, Refers sh a b → ¬ Reaches sh b a := by
    intro b hb hba
    obtain ⟨l, _, hg, hd⟩ := h.good (hrefs hb)
    exact hd a ((hg.mem a).2 hba) (by simp)
  refine ⟨foldl_addNew_nodup (by simp), foldl_addNew_head (by simp), hmem, ?_, ?_, ?_⟩
  · rintro ⟨x, y, hax, hxy, hyx⟩
    rcases reaches_iff.1 hax with hx | ⟨b, hab, hbx⟩
    · subst hx; exact hnotback hxy hyx
    · obtain ⟨l, _, hg, _⟩ := h.good (hrefs hab)
      exact hg.noLoop ⟨x, y, hbx, hxy, hyx⟩
  · rintro ⟨x, hax, hx⟩
    rcases reaches_iff.1 hax with hx' | ⟨b, hab, hbx⟩
    · subst hx'; rw [hf] at hx; simp at hx
    · obtain ⟨l, _, hg, _⟩ := h.good (hrefs hab)
      exact hg.noDangling ⟨x, hbx, hx⟩
  · intro α own v
    rw [foldl_addNew_find]
    cases ha : own a with
    | some w =>
      simp only [List.findSome?_cons, ha, Option.some_or, Option.some.injEq]
      constructor
      · intro h; subst h; exact .own ha
      · intro hg
        cases hg with
        | own h => rw [ha] at h; simpa using h
        | ref h => rw [ha] at h; simp at h
    | none =>
      simp only [List.findSome?_cons, ha, List.findSome?_nil, Option.none_or]
      rw [h.find_iff own]
      constructor
      · rintro ⟨pre, b, post, heq, hpre, hb⟩
        exact .ref ha (heq ▸ hf) hpre hb
      · intro hg
        cases hg with
        | own h => rw [ha] at h; simp at h
        | ref _ hf' hpre hb =>
          rw [hf, Option.some.injEq] at hf'
          exact ⟨_, _, _, hf', hpre, hb⟩

theorem find_mem {sh : Sheet} {a : Name} (h : (find sh a).isSome = true) : a ∈ sh.map Prod.fst := by
  simp only [find, Option.isSome_map, List.find?_isSome] at h
  obtain ⟨s, hs, h⟩ := h
  exact List.mem_map.2 ⟨s, hs, by simpa using h⟩

theorem visit_spec {sh : Sheet} : ∀ {n : Nat} {locked : List Name} {c : Cache} {a : Name}, sh.length + 1 ≤ n + locked.length →
    locked.Nodup → (∀ x ∈ locked, (find sh x).isSome = true ∧ ∃ y, Refers sh x y ∧ Reaches sh y a) → Sound sh c →
    Outcome sh locked a (visit sh n locked c a)
  | 0, locked, c, a, hn, hnd, hl, _ => by
    have := length_le_of_nodup (m := sh.map Prod.fst) hnd (fun x hx => find_mem (hl x hx).1)
    simp at this hn
    omega
  | n + 1, locked, c, a, hn, hnd, hl, hc => by
    rw [visit]
    cases hf : find sh a with
    | none =>
      refine ⟨hc, by simp, ?_⟩
      intro e he
      simp only [Except.error.injEq] at he
      subst he
      exact ⟨.refl _, hf⟩
    | some refs =>
      by_cases hla : a ∈ locked
      · simp only [hla, if_true]
        refine ⟨hc, by simp, ?_⟩
        intro e he
        simp only [Except.error.injEq] at he
        subst he
        exact ⟨.refl _, (hl a hla).2⟩
      · simp only [hla, if_false]
        cases hca : c.get a with
        | some l =>
          have hg := hc a l hca
          refine ⟨hc, ?_, by simp⟩
          intro l' hl'
          simp only [Except.ok.injEq] at hl'
          subst hl'
          refine ⟨hg, ?_⟩
          intro x hx hxl
          obtain ⟨_, y, hxy, hya⟩ := hl x hxl
          have hax := (hg.mem x).1 hx
          exact hg.noLoop ⟨x, y, hax, hxy, hya.trans hax⟩
        | none =>
          have hstep : ∀ r ∈ refs, ∀ c, Sound sh c → Outcome sh (a :: locked) r (visit sh n (a :: locked) c r) := by
            intro r hr c hc
            have hra : Refers sh a r := ⟨refs, hf, hr⟩
            apply visit_spec _ (List.nodup_cons.2 ⟨hla, hnd⟩) _ hc
            · simp only [List.length_cons]; omega
            · intro x hx
              rcases List.mem_cons.1 hx with h | h
              · subst h; exact ⟨by simp [hf], r, hra, .refl _⟩
              · obtain ⟨h1, y, hxy, hya⟩ := hl x h
                exact ⟨h1, y, hxy, hya.trans (.step hra (.refl _))⟩
          have hloop := refsLoop_spec (acc := [a]) hstep hc
          rcases hres : refsLoop (visit sh n (a :: locked)) c refs [a] with ⟨o, c'⟩
          rw [hres] at hloop
          cases o with
          | error e =>
            simp only
            refine ⟨hloop.1, by simp, ?_⟩
            intro e' he'
            simp only [Except.error.injEq] at he'
            subst he'
            obtain ⟨r, hr, hj⟩ := hloop.2.2 e rfl
            have hra : Refers sh a r := ⟨refs, hf, hr⟩
            cases e with
            | circle x => exact ⟨.step hra hj.1, hj.2⟩
            | missing x => exact ⟨.step hra hj.1, hj.2⟩
            | fuel => exact hj
          | ok l =>
            simp only
            obtain ⟨ls, hls, hl'⟩ := hloop.2.1 l rfl
            have hg : Good sh a l := by rw [hl']; exact good_of_refs hf hls
            refine ⟨?_, ?_, by simp⟩
            · intro b lb hb
              simp only [Cache.get, List.find?_cons] at hb
              by_cases hab : a = b
              · subst hab
                simp at hb
                exact hb ▸ hg
              · simp only [hab, decide_false] at hb
                exact hloop.1 b lb hb
            · intro l' hl2
              simp only [Except.ok.injEq] at hl2
              subst hl2
              refine ⟨hg, ?_⟩
              intro x hx hxl
              rw [hl', foldl_addNew_mem] at hx
              rcases hx with hx | ⟨m, hm, hx⟩
              · simp only [List.mem_singleton] at hx
                subst hx; exact hla hxl
              · obtain ⟨r, hr, hrx⟩ := hls.mem_iff.1 ⟨m, hm, hx⟩
                obtain ⟨m', _, hg', hd⟩ := hls.good hr
                exact hd x ((hg'.mem x).2 hrx) (List.mem_cons_of_mem _ hxl)

theorem sound_nil (sh : Sheet) : Sound sh [] := by
  intro a l h; simp [Cache.get] at h

end Verif.Style
