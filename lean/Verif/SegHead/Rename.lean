import Verif.SegHead.Model

/-!
# Resolving references in a renamed part of a style sheet

Lemmas: if a part of a style sheet that is closed under references is renamed, resolving renamed references in it
gives the renamed result.
-/
namespace Verif.SegHead

open Verif.Style

/-- `sh'` holds the styles in `K`, which are closed under references, renamed by `ρ`. -/
structure Part (sh sh' : Sheet) (ρ : Name → Name) (K : Name → Prop) : Prop where
  inj : ∀ a b, ρ a = ρ b → a = b
  find : ∀ s, K s → find sh' (ρ s) = (find sh s).map (·.map ρ)
  closed : ∀ s, K s → ∀ t, Refers sh s t → K t

variable {sh sh' : Sheet} {ρ : Name → Name} {K : Name → Prop}

theorem Part.reaches_K (h : Part sh sh' ρ K) {a b : Name} (hr : Reaches sh a b) : K a → K b := by
  induction hr with
  | refl => exact id
  | step hab _ ih => exact fun ha => ih (h.closed _ ha _ hab)

theorem Part.refers (h : Part sh sh' ρ K) {a b' : Name} (ha : K a) : Refers sh' (ρ a) b' ↔ ∃ b, b' = ρ b ∧ Refers sh a b := by
  constructor
  · rintro ⟨refs, hf, hm⟩
    rw [h.find a ha] at hf
    cases hf' : Style.find sh a with
    | none => rw [hf'] at hf; simp at hf
    | some l =>
      rw [hf'] at hf
      simp only [Option.map_some, Option.some.injEq] at hf
      subst hf
      obtain ⟨b, hb, rfl⟩ := List.mem_map.mp hm
      exact ⟨b, rfl, l, hf', hb⟩
  · rintro ⟨b, rfl, l, hf, hb⟩
    exact ⟨l.map ρ, by rw [h.find a ha, hf]; rfl, List.mem_map.mpr ⟨b, hb, rfl⟩⟩

theorem Part.reaches_of (h : Part sh sh' ρ K) {a' b' : Name} (hr : Reaches sh' a' b') :
    ∀ a, a' = ρ a → K a → ∃ b, b' = ρ b ∧ Reaches sh a b := by
  induction hr with
  | refl => exact fun a e _ => ⟨a, e, .refl _⟩
  | step hab _ ih =>
    intro a e ha
    subst e
    obtain ⟨b, rfl, hb⟩ := (h.refers ha).mp hab
    obtain ⟨c, rfl, hc⟩ := ih b rfl (h.closed _ ha _ hb)
    exact ⟨c, rfl, .step hb hc⟩

theorem Part.reaches_to (h : Part sh sh' ρ K) {a b : Name} (hr : Reaches sh a b) : K a → Reaches sh' (ρ a) (ρ b) := by
  induction hr with
  | refl => exact fun _ => .refl _
  | step hab _ ih => exact fun ha => .step ((h.refers ha).mpr ⟨_, rfl, hab⟩) (ih (h.closed _ ha _ hab))

theorem Part.gives_to (h : Part sh sh' ρ K) {α : Type} {own : Name → Option α} {a : Name} {v : α}
    (hg : Gives sh (fun x => own (ρ x)) a v) : K a → Gives sh' own (ρ a) v := by
  induction hg with
  | own ho => exact fun _ => .own ho
  | @ref a b v pre post hn hf hpre _ ih =>
    intro ha
    have hb : K b := h.closed _ ha _ ⟨_, hf, by simp⟩
    refine .ref (pre := pre.map ρ) (post := post.map ρ) hn (by rw [h.find a ha, hf]; simp) ?_ (ih hb)
    intro c' hc' x' hx'
    obtain ⟨c, hc, rfl⟩ := List.mem_map.mp hc'
    obtain ⟨x, rfl, hx⟩ := h.reaches_of hx' c rfl (h.closed _ ha _ ⟨_, hf, List.mem_append_left _ hc⟩)
    exact hpre c hc x hx

theorem append_of_map {α β : Type} {f : α → β} : ∀ {l : List α} {p q : List β} {b : β}, l.map f = p ++ b :: q →
    ∃ p' b' q', l = p' ++ b' :: q' ∧ p'.map f = p ∧ f b' = b ∧ q'.map f = q
  | [], p, q, b, h => by simp at h
  | x :: xs, [], q, b, h => by
    simp only [List.map_cons, List.nil_append, List.cons.injEq] at h
    exact ⟨[], x, xs, rfl, rfl, h.1, h.2⟩
  | x :: xs, y :: p, q, b, h => by
    simp only [List.map_cons, List.cons_append, List.cons.injEq] at h
    obtain ⟨p', b', q', h1, h2, h3, h4⟩ := append_of_map h.2
    exact ⟨x :: p', b', q', by rw [h1]; rfl, by simp [h.1, h2], h3, h4⟩

theorem Part.gives_of (h : Part sh sh' ρ K) {α : Type} {own : Name → Option α} {a' : Name} {v : α}
    (hg : Gives sh' own a' v) : ∀ a, a' = ρ a → K a → Gives sh (fun x => own (ρ x)) a v := by
  induction hg with
  | own ho => intro a e _; subst e; exact .own ho
  | @ref a' b' v pre' post' hn hf hpre _ ih =>
    intro a e ha
    subst e
    rw [h.find a ha] at hf
    cases hf' : Style.find sh a with
    | none => rw [hf'] at hf; simp at hf
    | some l =>
      rw [hf'] at hf
      simp only [Option.map_some, Option.some.injEq] at hf
      obtain ⟨pre, b, post, rfl, rfl, rfl, rfl⟩ := append_of_map hf
      refine .ref hn hf' ?_ (ih b rfl (h.closed _ ha _ ⟨_, hf', by simp⟩))
      intro c hc x hx
      exact hpre (ρ c) (List.mem_map.mpr ⟨c, hc, rfl⟩) (ρ x)
        (h.reaches_to hx (h.closed _ ha _ ⟨_, hf', List.mem_append_left _ hc⟩))

theorem nodup_map {α β : Type} {f : α → β} (hf : ∀ a b, f a = f b → a = b) : ∀ {l : List α}, l.Nodup → (l.map f).Nodup
  | [], _ => by simp
  | x :: xs, h => by
    rw [List.nodup_cons] at h
    rw [List.map_cons, List.nodup_cons]
    refine ⟨?_, nodup_map hf h.2⟩
    intro hm
    obtain ⟨y, hy, e⟩ := List.mem_map.mp hm
    exact h.1 (hf _ _ e ▸ hy)

theorem findSome_map {α β γ : Type} (f : α → β) (g : β → Option γ) : ∀ l : List α,
    (l.map f).findSome? g = l.findSome? (fun x => g (f x))
  | [] => rfl
  | x :: xs => by simp only [List.map_cons, List.findSome?_cons, findSome_map f g xs]

theorem Part.noLoop (h : Part sh sh' ρ K) {a : Name} (ha : K a) (hl : ¬ Loop sh a) : ¬ Loop sh' (ρ a) := by
  rintro ⟨x', y', hx, hxy, hyx⟩
  obtain ⟨x, rfl, hx1⟩ := h.reaches_of hx a rfl ha
  have hKx := h.reaches_K hx1 ha
  obtain ⟨y, rfl, hxy1⟩ := (h.refers hKx).mp hxy
  obtain ⟨z, he, hyx1⟩ := h.reaches_of hyx y rfl (h.closed _ hKx _ hxy1)
  have := h.inj _ _ he
  subst this
  exact hl ⟨x, y, hx1, hxy1, hyx1⟩

theorem Part.noDangling (h : Part sh sh' ρ K) {a : Name} (ha : K a) (hl : ¬ Dangling sh a) : ¬ Dangling sh' (ρ a) := by
  rintro ⟨x', hx, hf⟩
  obtain ⟨x, rfl, hx1⟩ := h.reaches_of hx a rfl ha
  rw [h.find x (h.reaches_K hx1 ha), Option.map_eq_none_iff] at hf
  exact hl ⟨x, hx1, hf⟩

theorem Part.good (h : Part sh sh' ρ K) {a : Name} (ha : K a) {l : List Name} (hg : Good sh a l) : Good sh' (ρ a) (l.map ρ) where
  nodup := nodup_map h.inj hg.nodup
  head := by rw [List.head?_map, hg.head]; rfl
  mem := by
    intro x'
    rw [List.mem_map]
    constructor
    · rintro ⟨x, hx, rfl⟩
      exact h.reaches_to ((hg.mem x).mp hx) ha
    · intro hx
      obtain ⟨x, rfl, hx1⟩ := h.reaches_of hx a rfl ha
      exact ⟨x, (hg.mem x).mpr hx1, rfl⟩
  noLoop := h.noLoop ha hg.noLoop
  noDangling := h.noDangling ha hg.noDangling
  gives := by
    intro α own v
    rw [findSome_map, hg.gives]
    exact ⟨fun hx => h.gives_to hx ha, fun hx => h.gives_of hx a rfl ha⟩

theorem Part.all (h : Part sh sh' ρ K) : ∀ {rs : List Name} {ls : List (List Name)}, All sh [] rs ls → (∀ r ∈ rs, K r) →
    All sh' [] (rs.map ρ) (ls.map (·.map ρ))
  | _, _, .nil, _ => .nil
  | _, _, .cons hg _ hr, hk =>
    .cons (h.good (hk _ List.mem_cons_self) hg) (by simp) (h.all hr (fun r hr => hk r (List.mem_cons_of_mem _ hr)))

theorem addNew_map (hinj : ∀ a b, ρ a = ρ b → a = b) : ∀ (l acc : List Name), addNew (acc.map ρ) (l.map ρ) = (addNew acc l).map ρ
  | [], acc => rfl
  | x :: xs, acc => by
    rw [List.map_cons, addNew, addNew]
    have : ρ x ∈ acc.map ρ ↔ x ∈ acc := by
      rw [List.mem_map]
      exact ⟨fun ⟨y, hy, e⟩ => hinj _ _ e ▸ hy, fun hx => ⟨x, hx, rfl⟩⟩
    by_cases hx : x ∈ acc
    · rw [if_pos hx, if_pos (this.mpr hx), addNew_map hinj xs acc]
    · rw [if_neg hx, if_neg (fun h => hx (this.mp h)), ← addNew_map hinj xs (acc ++ [x])]
      simp

theorem foldl_addNew_map (hinj : ∀ a b, ρ a = ρ b → a = b) : ∀ (ls : List (List Name)) (acc : List Name),
    (ls.map (·.map ρ)).foldl addNew (acc.map ρ) = (ls.foldl addNew acc).map ρ
  | [], acc => rfl
  | l :: ls, acc => by
    rw [List.map_cons, List.foldl_cons, List.foldl_cons, addNew_map hinj, foldl_addNew_map hinj ls]

/-- The result of resolving renamed references in the renamed part. -/
theorem Part.collect (h : Part sh sh' ρ K) {refs l : List Name} (hk : ∀ r ∈ refs, K r)
    (hc : (Style.collect sh [] refs).1 = .ok l) : (Style.collect sh' [] (refs.map ρ)).1 = .ok (l.map ρ) := by
  obtain ⟨ls, hls, rfl⟩ := (collect_spec (sound_nil sh) refs).2.1 l hc
  have hall := h.all hls hk
  have hok : ∃ l', (Style.collect sh' [] (refs.map ρ)).1 = .ok l' := by
    rw [C29_succeeds_iff .init]
    intro r' hr'
    obtain ⟨r, hr, rfl⟩ := List.mem_map.mp hr'
    have := (C29_succeeds_iff (sh := sh) .init refs).mp ⟨_, hc⟩ r hr
    exact ⟨h.noLoop (hk r hr) this.1, h.noDangling (hk r hr) this.2⟩
  obtain ⟨l', hl'⟩ := hok
  obtain ⟨ls', hls', rfl⟩ := (collect_spec (sound_nil sh') (refs.map ρ)).2.1 l' hl'
  rw [hl', all_unique hls' hall]
  have := foldl_addNew_map (ρ := ρ) h.inj ls []
  rw [List.map_nil] at this
  rw [this]

/-! ### What a reference list leads to -/

theorem refStyles_ok {hd : Head} {refs l : List Name} : refStyles hd refs = .ok l ↔ (Style.collect hd.sheet [] refs).1 = .ok l := by
  unfold refStyles
  cases (Style.collect hd.sheet [] refs).1 <;> simp

/-- The resolution of references contains them, is closed under references, and holds styles of the sheet only. -/
theorem refStyles_closed {hd : Head} {refs l : List Name} (h : refStyles hd refs = .ok l) :
    (∀ r ∈ refs, r ∈ l) ∧ (∀ s ∈ l, ∀ t, Refers hd.sheet s t → t ∈ l) ∧ ∀ s ∈ l, (find hd.sheet s).isSome := by
  have hok := refStyles_ok.mp h
  obtain ⟨_, hmem⟩ := C29_reachable_exactly_once .init hok
  have hgood := (C29_succeeds_iff (sh := hd.sheet) .init refs).mp ⟨_, hok⟩
  refine ⟨fun r hr => (hmem r).mpr ⟨r, hr, .refl _⟩, ?_, ?_⟩
  · intro s hs t hst
    obtain ⟨r, hr, hrs⟩ := (hmem s).mp hs
    exact (hmem t).mpr ⟨r, hr, hrs.trans (.step hst (.refl _))⟩
  · intro s hs
    obtain ⟨r, hr, hrs⟩ := (hmem s).mp hs
    cases hf : find hd.sheet s with
    | some _ => rfl
    | none => exact absurd ⟨s, hrs, hf⟩ (hgood r hr).2

end Verif.SegHead
