import Verif.Style.OrderLemmas

/-
C29: resolving style references.
-/
namespace Verif.Style

/-- The cache is one that resolving style references on this sheet left behind: it starts empty
(bindings/__init__.py:425) and every style, region and element resolved adds to it. -/
inductive Reached (sh : Sheet) : Cache → Prop
  | init : Reached sh []
  | more {c : Cache} (refs : List Name) : Reached sh c → Reached sh (collect sh c refs).2

theorem visit_top {sh : Sheet} {c : Cache} (hc : Sound sh c) (a : Name) :
    Outcome sh [] a (visit sh (sh.length + 1) [] c a) :=
  visit_spec (by simp) (by simp) (by simp) hc

theorem collect_spec {sh : Sheet} {c : Cache} (hc : Sound sh c) (refs : List Name) :
    Sound sh (collect sh c refs).2 ∧
    (∀ l, (collect sh c refs).1 = .ok l → ∃ ls, All sh [] refs ls ∧ l = ls.foldl addNew []) ∧
    (∀ e, (collect sh c refs).1 = .error e → ∃ r ∈ refs, Justified sh r e) :=
  refsLoop_spec (fun r _ _ hc => visit_top hc r) hc

theorem reached_sound {sh : Sheet} {c : Cache} (h : Reached sh c) : Sound sh c := by
  induction h with
  | init => exact sound_nil sh
  | more refs _ ih => exact (collect_spec ih refs).1

/-- **C29**: for every style sheet and reference list, resolving ends with a result or with one of the
two errors. -/
theorem C29_total {sh : Sheet} {c : Cache} (h : Reached sh c) (refs : List Name) :
    (collect sh c refs).1 ≠ .error .fuel := by
  intro he
  obtain ⟨r, _, hj⟩ := (collect_spec (reached_sound h) refs).2.2 _ he
  exact hj

/-- **C29**: resolving succeeds exactly when, from the given references, no style can be reached that
leads back to itself and no reference that names no style. -/
theorem C29_succeeds_iff {sh : Sheet} {c : Cache} (h : Reached sh c) (refs : List Name) :
    (∃ l, (collect sh c refs).1 = .ok l) ↔ ∀ r ∈ refs, ¬ Loop sh r ∧ ¬ Dangling sh r := by
  have hs := collect_spec (reached_sound h) refs
  constructor
  · rintro ⟨l, hl⟩ r hr
    obtain ⟨ls, hls, _⟩ := hs.2.1 l hl
    obtain ⟨_, _, hg, _⟩ := hls.good hr
    exact ⟨hg.noLoop, hg.noDangling⟩
  · intro hall
    cases hres : (collect sh c refs).1 with
    | ok l => exact ⟨l, rfl⟩
    | error e =>
      obtain ⟨r, hr, hj⟩ := hs.2.2 e hres
      cases e with
      | circle x => exact absurd ⟨x, _, hj.1, hj.2.choose_spec.1, hj.2.choose_spec.2⟩ (hall r hr).1
      | missing x => exact absurd ⟨x, hj.1, hj.2⟩ (hall r hr).2
      | fuel => exact hj.elim

/-- **C29**: the error says what is wrong: the loop error names a style that can be reached and leads
back to itself, the missing style error a reachable reference that names no style. -/
theorem C29_error_is_true {sh : Sheet} {c : Cache} (h : Reached sh c) (refs : List Name) :
    (∀ x, (collect sh c refs).1 = .error (.circle x) →
      ∃ r ∈ refs, Reaches sh r x ∧ ∃ y, Refers sh x y ∧ Reaches sh y x) ∧
    (∀ x, (collect sh c refs).1 = .error (.missing x) → ∃ r ∈ refs, Reaches sh r x ∧ find sh x = none) :=
  ⟨fun _ he => (collect_spec (reached_sound h) refs).2.2 _ he,
   fun _ he => (collect_spec (reached_sound h) refs).2.2 _ he⟩

/-- **C29**: the result holds every style that can be reached from the references, once, and nothing
else. -/
theorem C29_reachable_exactly_once {sh : Sheet} {c : Cache} (h : Reached sh c) {refs l : List Name}
    (hl : (collect sh c refs).1 = .ok l) :
    l.Nodup ∧ ∀ x, x ∈ l ↔ ∃ r ∈ refs, Reaches sh r x := by
  obtain ⟨ls, hls, rfl⟩ := (collect_spec (reached_sound h) refs).2.1 l hl
  refine ⟨foldl_addNew_nodup (by simp), ?_⟩
  intro x
  rw [foldl_addNew_mem, hls.mem_iff]
  simp

/-- **C29**: the order of the result gives a style priority over the styles it refers to, and an
earlier reference, with everything it leads to, priority over a later one: the first style of the
result that sets an attribute sets it to the value the references stand for. -/
theorem C29_order_gives_priority {sh : Sheet} {c : Cache} (h : Reached sh c) {refs l : List Name}
    (hl : (collect sh c refs).1 = .ok l) {α : Type} (own : Name → Option α) (v : α) :
    l.findSome? own = some v ↔ GivesList sh own refs v := by
  obtain ⟨ls, hls, rfl⟩ := (collect_spec (reached_sound h) refs).2.1 l hl
  rw [foldl_addNew_find]
  simp only [List.findSome?_nil, Option.none_or]
  exact hls.find_iff own

theorem eq_of_first : ∀ {l l' : List Name}, l.Nodup → l'.Nodup →
    (∀ own : Name → Option Name, l.findSome? own = l'.findSome? own) → l = l'
  | [], [], _, _, _ => rfl
  | [], y :: ys, _, _, h => by have := h some; simp at this
  | x :: xs, [], _, _, h => by have := h some; simp at this
  | x :: xs, y :: ys, hn, hn', h => by
    have hxy : x = y := by have := h some; simpa using this
    subst hxy
    rw [List.nodup_cons] at hn hn'
    have key : ∀ {zs : List Name}, x ∉ zs → ∀ own : Name → Option Name,
        (x :: zs).findSome? (fun z => if z = x then none else own z) = zs.findSome? own := by
      intro zs hz own
      simp only [List.findSome?_cons, if_true]
      induction zs with
      | nil => rfl
      | cons w ws ih =>
        have hw : w ≠ x := fun e => hz (by simp [e])
        simp only [List.findSome?_cons, hw, if_false]
        rw [ih (fun hx => hz (List.mem_cons_of_mem _ hx))]
    rw [eq_of_first hn.2 hn'.2 (fun own => by rw [← key hn.1 own, ← key hn'.1 own, h])]

theorem good_unique {sh : Sheet} {a : Name} {l l' : List Name} (h : Good sh a l) (h' : Good sh a l') : l = l' := by
  apply eq_of_first h.nodup h'.nodup
  intro own
  cases hf : l'.findSome? own with
  | some v => exact (h.gives _ own v).2 ((h'.gives _ own v).1 hf)
  | none =>
    rw [findSome_none] at hf ⊢
    exact fun x hx => hf x ((h'.mem x).2 ((h.mem x).1 hx))

theorem all_unique {sh : Sheet} {locked locked' : List Name} :
    ∀ {rs : List Name} {ls ls' : List (List Name)}, All sh locked rs ls → All sh locked' rs ls' → ls = ls'
  | [], _, _, .nil, .nil => rfl
  | _ :: _, _, _, .cons hg _ h, .cons hg' _ h' => by rw [good_unique hg hg', all_unique h h']

/-- **C29**: what was resolved before does not matter: the remembered results change nothing. -/
theorem C29_history_independent {sh : Sheet} {c : Cache} (h : Reached sh c) (refs : List Name) :
    (collect sh c refs).1.toOption = (collect sh [] refs).1.toOption := by
  have h1 := C29_succeeds_iff h refs
  have h2 := C29_succeeds_iff (.init : Reached sh []) refs
  have hs := collect_spec (reached_sound h) refs
  have hs' := collect_spec (sound_nil sh) refs
  cases hr : (collect sh c refs).1 with
  | ok l =>
    obtain ⟨l', hl'⟩ := h2.2 (h1.1 ⟨l, hr⟩)
    obtain ⟨ls, hls, hl⟩ := hs.2.1 l hr
    obtain ⟨ls', hls', hl''⟩ := hs'.2.1 l' hl'
    rw [hl', hl, hl'', all_unique hls hls']
  | error e =>
    cases hr' : (collect sh [] refs).1 with
    | error e' => rfl
    | ok l' =>
      obtain ⟨l, hl⟩ := h1.2 (h2.1 ⟨l', hr'⟩)
      rw [hr] at hl
      exact absurd hl (by simp)

/-! ### The hypotheses are met, and what is not true -/

/-- A style sheet with sharing: `a` refers to `b` and `c`, `c` refers to `b`. -/
def exSheet : Sheet := [("a".toList, ["b".toList, "c".toList]), ("b".toList, []), ("c".toList, ["b".toList]),
  ("l".toList, ["m".toList]), ("m".toList, ["l".toList]), ("d".toList, ["nowhere".toList])]

example : (collect exSheet [] ["a".toList]).1.toOption = some ["a".toList, "b".toList, "c".toList] := by decide
example : (collect exSheet [] ["c".toList, "a".toList]).1.toOption = some ["c".toList, "b".toList, "a".toList] := by decide
example : (collect exSheet [] ["a".toList, "l".toList]).1 = .error (.circle "l".toList) := rfl
example : (collect exSheet [] ["d".toList]).1 = .error (.missing "nowhere".toList) := rfl
/-- After a failed resolution the styles resolved before stay cached and can be used. -/
example : (collect exSheet (collect exSheet [] ["a".toList, "l".toList]).2 ["c".toList]).1.toOption
    = some ["c".toList, "b".toList] := by decide

/-- The stronger reading "a referring style always comes before the styles it refers to" is false:
`c` refers to `b`, but `b` comes first because `a` refers to it first. -/
theorem C29_false_referring_first :
    (collect exSheet [] ["a".toList]).1.toOption = some ["a".toList, "b".toList, "c".toList] ∧
    Refers exSheet "c".toList "b".toList := by
  refine ⟨by decide, ["b".toList], by decide, by decide⟩

end Verif.Style
