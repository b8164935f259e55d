import Verif.Node.Dedup

/-! Helper lemmas for the deduplicator. -/
namespace Verif.Dedup
open Verif.Node

section dict
variable {κ ν : Type} [DecidableEq κ]

theorem Dict.get_put (d : Dict κ ν) (k : κ) (v : ν) (x : κ) : (d.put k v).get x = if x = k then some v else d.get x := by
  induction d with
  | nil =>
    by_cases h : k = x
    · subst h; simp [Dict.put, Dict.get]
    · have : ¬ x = k := fun e => h e.symm
      simp [Dict.put, Dict.get, h, this]
  | cons a r ih =>
    obtain ⟨a, b⟩ := a
    by_cases ha : a = k
    · subst ha
      by_cases h : a = x
      · subst h; simp [Dict.put, Dict.get]
      · have : ¬ x = a := fun e => h e.symm
        simp [Dict.put, Dict.get, h, this]
    · simp only [Dict.put, if_neg ha, Dict.get]
      by_cases h : a = x
      · subst h; simp [ha]
      · simp only [if_neg h]; exact ih

theorem Dict.mem_keys_put (d : Dict κ ν) (k : κ) (v : ν) (x : κ) :
    x ∈ (d.put k v).map Prod.fst ↔ x = k ∨ x ∈ d.map Prod.fst := by
  induction d with
  | nil => simp [Dict.put]
  | cons a r ih =>
    obtain ⟨a, b⟩ := a
    by_cases ha : a = k
    · subst ha; simp [Dict.put]
    · simp only [Dict.put, if_neg ha, List.map_cons, List.mem_cons, ih]
      constructor
      · rintro (h | h | h)
        · exact .inr (.inl h)
        · exact .inl h
        · exact .inr (.inr h)
      · rintro (h | h | h)
        · exact .inr (.inl h)
        · exact .inl h
        · exact .inr (.inr h)

theorem Dict.nodup_put {d : Dict κ ν} (h : (d.map Prod.fst).Nodup) (k : κ) (v : ν) : ((d.put k v).map Prod.fst).Nodup := by
  induction d with
  | nil => simp [Dict.put]
  | cons a r ih =>
    obtain ⟨a, b⟩ := a
    rw [List.map_cons, List.nodup_cons] at h
    by_cases ha : a = k
    · subst ha; simpa [Dict.put] using h
    · simp only [Dict.put, if_neg ha, List.map_cons, List.nodup_cons]
      refine ⟨?_, ih h.2⟩
      rw [Dict.mem_keys_put]
      rintro (h' | h')
      · exact ha h'
      · exact h.1 h'

theorem Dict.mem_iff_get {d : Dict κ ν} (h : (d.map Prod.fst).Nodup) (k : κ) (v : ν) : (k, v) ∈ d ↔ d.get k = some v := by
  induction d with
  | nil => simp [Dict.get]
  | cons a r ih =>
    obtain ⟨a, b⟩ := a
    rw [List.map_cons, List.nodup_cons] at h
    rw [Dict.get, List.mem_cons]
    by_cases ha : a = k
    · subst ha
      rw [if_pos rfl]
      constructor
      · rintro (h' | h')
        · simp at h'; rw [h']
        · exact absurd (List.mem_map_of_mem (f := Prod.fst) h') h.1
      · intro h'
        left
        simpa using h'.symm
    · rw [if_neg ha, ← ih h.2]
      constructor
      · rintro (h' | h')
        · simp at h'; exact absurd h'.1.symm ha
        · exact h'
      · exact .inr

end dict

/-! ### The text of an element -/

/-- Every percent sign is the last character or followed by a space. -/
def pctOk : List Char → Bool
  | [] => true
  | c :: r => (c != '%' || r.isEmpty || r.head? == some ' ') && pctOk r

/-- A value of an attribute such as `50%`, `10% 20%`, `#ffffff` or `sansSerif`: not empty, not a bar, not beginning
with a space or percent sign, and percent signs only at the end of words. -/
def tameVal (v : List Char) : Bool :=
  !v.isEmpty && v != ['|'] && v.head? != some '%' && v.head? != some ' ' && pctOk v

/-- All values of an element are of this kind. -/
def tameVals (vs : List (Option (List Char))) : Bool := vs.all (fun o => o.all tameVal)

theorem pctOk_split : ∀ (a b : List Char), pctOk (a ++ '%' :: b) = true → b = [] ∨ ∃ r, b = ' ' :: r
  | [], b, h => by
    simp only [List.nil_append, pctOk, Bool.and_eq_true] at h
    cases b with
    | nil => exact .inl rfl
    | cons c r => simp at h; exact .inr ⟨r, by rw [h.1]⟩
  | x :: a, b, h => by
    simp only [List.cons_append, pctOk, Bool.and_eq_true] at h
    exact pctOk_split a b h.2

/-- A text that begins neither with a percent sign nor with a space. -/
def Fresh (l : List Char) : Prop := ∀ r, l ≠ '%' :: r ∧ l ≠ ' ' :: r

theorem shown_tame {o : Option (List Char)} (h : o.all tameVal = true) : pctOk (o.getD ['|']) = true := by
  cases o with
  | none => decide
  | some v => simp [tameVal] at h; simp [h]

theorem shown_fresh {o : Option (List Char)} (h : o.all tameVal = true) (r : List Char) : Fresh (o.getD ['|'] ++ r) := by
  intro s
  cases o with
  | none => simp
  | some v =>
    simp only [Option.all_some, tameVal, Bool.and_eq_true] at h
    cases v with
    | nil => simp at h
    | cons c v => simp at h ⊢; simp [h]

theorem split_shown {a b r s : List Char} (ha : pctOk a = true) (hb : pctOk b = true) (hr : Fresh r) (hs : Fresh s)
    (h : a ++ '%' :: r = b ++ '%' :: s) : a = b ∧ r = s := by
  rcases List.append_eq_append_iff.mp h with ⟨x, hx, hy⟩ | ⟨x, hx, hy⟩
  · cases x with
    | nil => simp at hx hy; exact ⟨hx.symm, hy⟩
    | cons c x =>
      rw [List.cons_append, List.cons.injEq] at hy
      obtain ⟨hc, hy⟩ := hy
      subst hc
      rw [hx] at hb
      rcases pctOk_split a x hb with h0 | ⟨t, h0⟩
      · rw [h0] at hy; exact absurd hy (hr s).1
      · rw [h0] at hy; exact absurd hy (hr _).2
  · cases x with
    | nil => simp at hx hy; exact ⟨hx, hy.symm⟩
    | cons c x =>
      rw [List.cons_append, List.cons.injEq] at hy
      obtain ⟨hc, hy⟩ := hy
      subst hc
      rw [hx] at ha
      rcases pctOk_split b x ha with h0 | ⟨t, h0⟩
      · rw [h0] at hy; exact absurd hy (hs r).1
      · rw [h0] at hy; exact absurd hy (hs _).2

theorem fresh_vals : ∀ {vs : List (Option (List Char))}, tameVals vs = true → Fresh (vs.flatMap enc)
  | [], _ => by intro r; simp
  | o :: vs, h => by
    simp only [tameVals, List.all_cons, Bool.and_eq_true] at h
    rw [List.flatMap_cons, enc, List.append_assoc]
    exact shown_fresh h.1 _

theorem shown_inj {o o' : Option (List Char)} (h : o.all tameVal = true) (h' : o'.all tameVal = true)
    (he : o.getD ['|'] = o'.getD ['|']) : o = o' := by
  cases o with
  | none =>
    cases o' with
    | none => rfl
    | some v => simp at he; subst he; simp [tameVal] at h'
  | some v =>
    cases o' with
    | none => simp at he; subst he; simp [tameVal] at h
    | some v' => simp at he; rw [he]

theorem vals_inj : ∀ {vs ws : List (Option (List Char))}, tameVals vs = true → tameVals ws = true →
    vs.flatMap enc = ws.flatMap enc → vs = ws
  | [], [], _, _, _ => rfl
  | [], o :: ws, _, _, h => by
    exfalso
    simp only [List.flatMap_nil, List.flatMap_cons, enc] at h
    have := congrArg List.length h
    simp at this
  | o :: vs, [], _, _, h => by
    exfalso
    simp only [List.flatMap_nil, List.flatMap_cons, enc] at h
    have := congrArg List.length h
    simp at this
  | o :: vs, p :: ws, hv, hw, h => by
    simp only [tameVals, List.all_cons, Bool.and_eq_true] at hv hw
    rw [List.flatMap_cons, List.flatMap_cons, enc, enc, List.append_assoc, List.append_assoc, List.singleton_append,
      List.singleton_append] at h
    obtain ⟨h1, h2⟩ := split_shown (shown_tame hv.1) (shown_tame hw.1) (fresh_vals hv.2) (fresh_vals hw.2) h
    rw [shown_inj hv.1 hw.1 h1, vals_inj hv.2 hw.2 h2]

/-- The characters of an identifier. -/
def plainId (s : String) : Bool := !s.toList.isEmpty && s.toList.all (fun c => c != ' ' && c != '%' && c != '|')

theorem spaced_inj : ∀ {vs ws : List (List Char)}, (∀ v ∈ vs, v ≠ [] ∧ ' ' ∉ v) → (∀ w ∈ ws, w ≠ [] ∧ ' ' ∉ w) →
    spaced vs = spaced ws → vs = ws
  | [], [], _, _, _ => rfl
  | [], [w], _, hw, h => by simp [spaced] at h; exact absurd h (hw w (by simp)).1
  | [], w :: w' :: ws, _, _, h => by simp [spaced] at h
  | [v], [], hv, _, h => by simp [spaced] at h; exact absurd h (hv v (by simp)).1
  | v :: v' :: vs, [], _, _, h => by simp [spaced] at h
  | [v], [w], _, _, h => by simp [spaced] at h; rw [h]
  | [v], w :: w' :: ws, hv, _, h => by
    simp only [spaced] at h
    exact absurd (by rw [h]; simp) (hv v (by simp)).2
  | v :: v' :: vs, [w], _, hw, h => by
    simp only [spaced] at h
    exact absurd (by rw [← h]; simp) (hw w (by simp)).2
  | v :: v' :: vs, w :: w' :: ws, hv, hw, h => by
    simp only [spaced] at h
    have key : ∀ (a b x y : List Char), ' ' ∉ a → ' ' ∉ b → a ++ ' ' :: x = b ++ ' ' :: y → a = b ∧ x = y := by
      intro a b x y ha hb h
      rcases List.append_eq_append_iff.mp h with ⟨z, hz, hz'⟩ | ⟨z, hz, hz'⟩
      · cases z with
        | nil => simp at hz hz'; exact ⟨hz.symm, hz'⟩
        | cons c z =>
          rw [List.cons_append, List.cons.injEq] at hz'
          exact absurd (by rw [hz, ← hz'.1]; simp) hb
      · cases z with
        | nil => simp at hz hz'; exact ⟨hz, hz'.symm⟩
        | cons c z =>
          rw [List.cons_append, List.cons.injEq] at hz'
          exact absurd (by rw [hz, ← hz'.1]; simp) ha
    obtain ⟨h1, h2⟩ := key _ _ _ _ (hv v (by simp)).2 (hw w (by simp)).2 h
    rw [h1, spaced_inj (fun x hx => hv x (List.mem_cons_of_mem _ hx)) (fun x hx => hw x (List.mem_cons_of_mem _ hx)) h2]

/-- References to identifiers. -/
def plainRefs (rs : List Ref) : Prop := ∀ r ∈ rs, ∃ x, r = some x ∧ plainId x = true

theorem pctOk_spaced : ∀ {ws : List (List Char)}, (∀ w ∈ ws, '%' ∉ w) → '%' ∉ spaced ws
  | [], _ => by simp [spaced]
  | [w], h => by simpa [spaced] using h w (by simp)
  | w :: w' :: ws, h => by
    have ih := pctOk_spaced (ws := w' :: ws) (fun x hx => h x (List.mem_cons_of_mem _ hx))
    have := h w (by simp)
    simp only [spaced, List.mem_append, List.mem_cons]
    rintro (h' | h' | h')
    · exact this h'
    · simp at h'
    · exact ih h'

theorem pctOk_of_not_mem : ∀ {l : List Char}, '%' ∉ l → pctOk l = true
  | [], _ => rfl
  | c :: r, h => by
    rw [List.mem_cons, not_or] at h
    have hc : ¬ c = '%' := fun e => h.1 e.symm
    simp [pctOk, pctOk_of_not_mem h.2, hc]

theorem plain_words {rs : List Ref} (h : plainRefs rs) :
    ∀ w ∈ rs.map (fun r => (r.getD "None").toList), w ≠ [] ∧ ' ' ∉ w ∧ '%' ∉ w ∧ '|' ∉ w := by
  intro w hw
  obtain ⟨r, hr, rfl⟩ := List.mem_map.mp hw
  obtain ⟨x, rfl, hx⟩ := h r hr
  simp only [Option.getD_some]
  simp only [plainId, Bool.and_eq_true, Bool.not_eq_true', List.all_eq_true] at hx
  refine ⟨?_, ?_, ?_, ?_⟩
  · intro h0; rw [h0] at hx; simp at hx
  · intro hm; have := hx.2 _ hm; simp at this
  · intro hm; have := hx.2 _ hm; simp at this
  · intro hm; have := hx.2 _ hm; simp at this

theorem refsVal_tame {rs : List Ref} (h : plainRefs rs) : (refsVal rs).all tameVal = true := by
  cases rs with
  | nil => rfl
  | cons r rs =>
    have hw := plain_words h
    simp only [refsVal, Option.all_some]
    have hpct := pctOk_spaced (fun w hm => (hw w hm).2.2.1)
    have hhead : ∀ (w : List Char) (ws : List (List Char)), w ≠ [] → ∃ c t, w = c :: t ∧ ∃ t', spaced (w :: ws) = c :: t' := by
      intro w ws hne
      cases w with
      | nil => exact absurd rfl hne
      | cons c t =>
        refine ⟨c, t, rfl, ?_⟩
        cases ws with
        | nil => exact ⟨t, rfl⟩
        | cons w' ws => exact ⟨t ++ ' ' :: spaced (w' :: ws), rfl⟩
    simp only [List.map_cons] at hw hpct ⊢
    obtain ⟨c, t, h1, t', h2⟩ := hhead (r.getD "None").toList (rs.map (fun r => (r.getD "None").toList)) (hw _ List.mem_cons_self).1
    have h3 := hw _ (List.mem_cons_self)
    rw [h1] at h3
    rw [h2] at hpct ⊢
    simp only [List.mem_cons, not_or] at h3
    obtain ⟨_, ⟨a1, _⟩, ⟨a2, _⟩, ⟨a3, _⟩⟩ := h3
    have b1 : ¬ c = ' ' := fun e => a1 e.symm
    have b2 : ¬ c = '%' := fun e => a2 e.symm
    have b3 : ¬ c = '|' := fun e => a3 e.symm
    simp [tameVal, pctOk_of_not_mem hpct, b1, b2, b3]

theorem refsVal_inj {rs ss : List Ref} (h : plainRefs rs) (h' : plainRefs ss) (he : refsVal rs = refsVal ss) : rs = ss := by
  have inj : ∀ {rs ss : List Ref}, plainRefs rs → plainRefs ss →
      rs.map (fun r => (r.getD "None").toList) = ss.map (fun r => (r.getD "None").toList) → rs = ss := by
    intro rs
    induction rs with
    | nil => intro ss _ _ he; cases ss with
      | nil => rfl
      | cons s ss => simp at he
    | cons r rs ih =>
      intro ss h h' he
      cases ss with
      | nil => simp at he
      | cons s ss =>
        simp only [List.map_cons, List.cons.injEq] at he
        obtain ⟨x, rfl, _⟩ := h r (by simp)
        obtain ⟨y, rfl, _⟩ := h' s (by simp)
        have : x = y := by simpa [String.toList_inj] using he.1
        rw [this, ih (fun r hr => h r (List.mem_cons_of_mem _ hr)) (fun r hr => h' r (List.mem_cons_of_mem _ hr)) he.2]
  cases rs with
  | nil =>
    cases ss with
    | nil => rfl
    | cons s ss => simp [refsVal] at he
  | cons r rs =>
    cases ss with
    | nil => simp [refsVal] at he
    | cons s ss =>
      simp only [refsVal, Option.some.injEq] at he
      exact inj h h' (spaced_inj (fun w hw => ⟨(plain_words h w hw).1, (plain_words h w hw).2.1⟩)
        (fun w hw => ⟨(plain_words h' w hw).1, (plain_words h' w hw).2.1⟩) he)

/-- An element whose text determines its references and values. -/
def Plain (e : DElem) : Prop := plainRefs e.refs ∧ tameVals e.vals = true ∧ e.wild = []

theorem textOf_inj {e f : DElem} (he : Plain e) (hf : Plain f) (h : textOf e = textOf f) :
    e.refs = f.refs ∧ e.vals = f.vals := by
  have e1 : ∀ {g : DElem}, Plain g → textOf g = (refsVal g.refs :: g.vals).flatMap enc := by
    intro g hg
    simp [textOf, hg.2.2]
  rw [e1 he, e1 hf] at h
  have tame : ∀ {g : DElem}, Plain g → tameVals (refsVal g.refs :: g.vals) = true := by
    intro g hg
    simp only [tameVals, List.all_cons, Bool.and_eq_true]
    exact ⟨refsVal_tame hg.1, hg.2.1⟩
  have := vals_inj (tame he) (tame hf) h
  simp only [List.cons.injEq] at this
  exact ⟨refsVal_inj he.1 hf.1 this.1, this.2⟩

/-! ### Foreign attributes -/

theorem vals_inj_tail : ∀ {vs ws : List (Option (List Char))} {r s : List Char}, tameVals vs = true → tameVals ws = true →
    vs.length = ws.length → Fresh r → Fresh s → vs.flatMap enc ++ r = ws.flatMap enc ++ s → vs = ws ∧ r = s
  | [], [], _, _, _, _, _, _, _, h => ⟨rfl, by simpa using h⟩
  | [], _ :: _, _, _, _, _, h, _, _, _ => by simp at h
  | _ :: _, [], _, _, _, _, h, _, _, _ => by simp at h
  | o :: vs, p :: ws, r, s, hv, hw, hl, hr, hs, h => by
    have fr : ∀ {vs : List (Option (List Char))} {r : List Char}, tameVals vs = true → Fresh r → Fresh (vs.flatMap enc ++ r) := by
      intro vs r hv hr
      cases vs with
      | nil => simpa using hr
      | cons o vs =>
        simp only [tameVals, List.all_cons, Bool.and_eq_true] at hv
        rw [List.flatMap_cons, enc, List.append_assoc, List.append_assoc]
        exact shown_fresh hv.1 _
    simp only [tameVals, List.all_cons, Bool.and_eq_true] at hv hw
    simp only [List.flatMap_cons, enc, List.append_assoc, List.singleton_append] at h
    obtain ⟨h1, h2⟩ := split_shown (shown_tame hv.1) (shown_tame hw.1) (fr hv.2 hr) (fr hw.2 hs) h
    obtain ⟨h3, h4⟩ := vals_inj_tail hv.2 hw.2 (by simpa using hl) hr hs h2
    exact ⟨by rw [shown_inj hv.1 hw.1 h1, h3], h4⟩

theorem split_percent {a b r s : List Char} (ha : '%' ∉ a) (hb : '%' ∉ b) (h : a ++ '%' :: r = b ++ '%' :: s) : a = b ∧ r = s := by
  rcases List.append_eq_append_iff.mp h with ⟨x, hx, hy⟩ | ⟨x, hx, hy⟩
  · cases x with
    | nil => simp at hx hy; exact ⟨hx.symm, hy⟩
    | cons c x =>
      rw [List.cons_append, List.cons.injEq] at hy
      exact absurd (by rw [hx, ← hy.1]; simp) hb
  · cases x with
    | nil => simp at hx hy; exact ⟨hx, hy.symm⟩
    | cons c x =>
      rw [List.cons_append, List.cons.injEq] at hy
      exact absurd (by rw [hx, ← hy.1]; simp) ha

end Verif.Dedup
