import Verif.Convert.Fonts
import Mathlib.Data.List.Forall2

/-! Theorems about converted font sizes (C58). -/
namespace Verif.Convert

open Verif.Style

/-! ### Specification -/

/-- The font size, in cells, of an element in the converted document: the percentage of the generated style it refers to, of
the size around it; without such a style, the size around it.  No other style of the converted document has a font size
(ebutt3_ebuttd.py:212). -/
def sizeIn (sh : Sheet) (around : Rat) : Option Rat → Option Rat
  | none => some around
  | some k => (sh.get k).map (fun a => a.size / 100 * around)

/-- The line height in cells that the generated style gives to an element of font size `v`. -/
def heightIn (sh : Sheet) (v : Rat) : Option Rat → Option Rat
  | none => none
  | some k => (sh.get k).bind (fun a => a.lh.map (fun l => l / 100 * v))

/-- The line height of an element in cells, if it is a length. -/
def FEl.height (x : FEl) : Option Rat :=
  match x.lh with
  | .cell l => some l
  | _ => none

/-! ### Lemmas -/

theorem get_append {sh : Sheet} {a : Auto} {k : Rat} : Sheet.get (sh ++ [a]) k = (sh.get k).or (if a.id = k then some a else none) := by
  unfold Sheet.get
  rw [List.find?_append]
  congr 1
  by_cases h : a.id = k <;> simp [h]

theorem get_setLh {sh : Sheet} {k l j : Rat} : Sheet.get (setLh sh k l) j =
    (sh.get j).map (fun a => if a.id = k then { a with lh := some l } else a) := by
  unfold Sheet.get setLh
  rw [List.find?_map]
  congr 2
  funext a
  simp only [Function.comp_apply]
  split <;> rfl

theorem get_id {sh : Sheet} {k : Rat} {a : Auto} (h : sh.get k = some a) : a.id = k := by
  have := List.find?_some h
  simpa using this

theorem eqDim_v {a b : Dim} (h : eqDim a b = true) : a.v = b.v := by
  unfold eqDim at h
  split at h <;> simp_all

/-- Every style of `sh` is still in `sh'`. -/
def Grows (sh sh' : Sheet) : Prop := ∀ k, (sh.get k).isSome = true → (sh'.get k).isSome = true

/-- What an element refers to gives its size, in any later sheet. -/
def Sized (sh : Sheet) (around v : Rat) (o : Option Rat) : Prop :=
  match o with
  | none => v = around
  | some k => around ≠ 0 ∧ k = v / around * 100 ∧ (sh.get k).isSome = true

theorem fixFont_spec {ref : Dim} {x : FEl} {sh sh' : Sheet} {o : Option Rat} (h : fixFont ref x sh = some (o, sh'))
    (hg : ∀ k a, sh.get k = some a → a.size = k) :
    Grows sh sh' ∧ (∀ k a, sh'.get k = some a → a.size = k) ∧
    Sized sh' ref.v x.fs.v o := by
  unfold fixFont at h
  split at h
  · rename_i he
    simp only [Option.some.injEq, Prod.mk.injEq] at h
    obtain ⟨rfl, rfl⟩ := h
    exact ⟨fun k hk => hk, hg, (eqDim_v he).symm⟩
  · cases hd : divDim x.fs ref with
    | none => rw [hd] at h; simp at h
    | some k =>
      rw [hd] at h
      simp only at h
      have hk : ref.v ≠ 0 ∧ k = x.fs.v / ref.v * 100 := by
        unfold divDim at hd
        split at hd
        · simp at hd
        · rename_i hv
          split at hd
          · simp at hd
          · simp only [Option.some.injEq] at hd
            exact ⟨hv, hd.symm⟩
      have hauto : Grows sh (autoStyle sh k) ∧ (∀ j a, (autoStyle sh k).get j = some a → a.size = j) ∧
          ((autoStyle sh k).get k).isSome = true := by
        unfold autoStyle
        cases hgk : sh.get k with
        | some a => exact ⟨fun j hj => hj, hg, by simp [hgk]⟩
        | none =>
          refine ⟨?_, ?_, ?_⟩
          · intro j hj
            rw [get_append]
            cases hs : sh.get j with
            | none => rw [hs] at hj; simp at hj
            | some a => simp
          · intro j a ha
            rw [get_append] at ha
            cases hs : sh.get j with
            | some b =>
              rw [hs] at ha
              simp only [Option.some_or, Option.some.injEq] at ha
              subst ha
              exact hg j b hs
            | none =>
              rw [hs] at ha
              simp only [Option.none_or] at ha
              split at ha
              · rename_i e
                simp only [Option.some.injEq] at ha
                rw [← ha]
                exact e
              · simp at ha
          · rw [get_append]
            simp
      obtain ⟨h1, h2, h3⟩ := hauto
      split at h
      · split at h
        · simp at h
        · simp only [Option.some.injEq, Prod.mk.injEq] at h
          obtain ⟨rfl, rfl⟩ := h
          refine ⟨?_, ?_, hk.1, hk.2, ?_⟩
          · intro j hj
            rw [get_setLh]
            simpa using h1 j hj
          · intro j a ha
            rw [get_setLh] at ha
            cases hs : (autoStyle sh k).get j with
            | none => rw [hs] at ha; simp at ha
            | some b =>
              rw [hs] at ha
              simp only [Option.map_some, Option.some.injEq] at ha
              have := h2 j b hs
              rw [← ha]
              split <;> exact this
          · rw [get_setLh]
            simpa using h3
      · simp only [Option.some.injEq, Prod.mk.injEq] at h
        obtain ⟨rfl, rfl⟩ := h
        exact ⟨h1, h2, hk.1, hk.2, h3⟩

theorem Grows.trans {a b c : Sheet} (h1 : Grows a b) (h2 : Grows b c) : Grows a c := fun k hk => h2 k (h1 k hk)

theorem Sized.mono {sh sh' : Sheet} (h : Grows sh sh') {around v : Rat} {o : Option Rat} (hs : Sized sh around v o) : Sized sh' around v o := by
  unfold Sized at *
  cases o with
  | none => exact hs
  | some k => exact ⟨hs.1, hs.2.1, h k hs.2.2⟩

theorem Sized.size {sh : Sheet} (hg : ∀ k a, sh.get k = some a → a.size = k) {around v : Rat} {o : Option Rat} (hs : Sized sh around v o) :
    sizeIn sh around o = some v := by
  unfold Sized at hs
  unfold sizeIn
  cases o with
  | none => rw [hs]
  | some k =>
    obtain ⟨h0, hk, hsome⟩ := hs
    cases ha : sh.get k with
    | none => rw [ha] at hsome; simp at hsome
    | some a =>
      show (sh.get k).map _ = _
      rw [ha]
      simp only [Option.map_some, Option.some.injEq]
      rw [hg k a ha, hk]
      grind

theorem fixSpans_spec {ref : Dim} : ∀ {xs : List FEl} {sh sh' : Sheet} {os : List (Option Rat)}, fixSpans ref xs sh = some (os, sh') →
    (∀ k a, sh.get k = some a → a.size = k) →
    Grows sh sh' ∧ (∀ k a, sh'.get k = some a → a.size = k) ∧ List.Forall₂ (fun x o => Sized sh' ref.v x.fs.v o) xs os
  | [], sh, sh', os, h, hg => by
    simp only [fixSpans, Option.some.injEq, Prod.mk.injEq] at h
    obtain ⟨rfl, rfl⟩ := h
    exact ⟨fun k hk => hk, hg, .nil⟩
  | x :: xs, sh, sh', os, h, hg => by
    simp only [fixSpans] at h
    cases hf : fixFont ref x sh with
    | none => rw [hf] at h; simp at h
    | some r =>
      obtain ⟨o, sh1⟩ := r
      rw [hf] at h
      simp only at h
      cases hr : fixSpans ref xs sh1 with
      | none => rw [hr] at h; simp at h
      | some r =>
        obtain ⟨os1, sh2⟩ := r
        rw [hr] at h
        simp only [Option.some.injEq, Prod.mk.injEq] at h
        obtain ⟨rfl, rfl⟩ := h
        obtain ⟨g1, g2, g3⟩ := fixFont_spec hf hg
        obtain ⟨k1, k2, k3⟩ := fixSpans_spec hr g2
        exact ⟨g1.trans k1, k2, .cons (g3.mono k1) k3⟩

theorem fixP_spec {p : FP} {sh sh' : Sheet} {o : Option Rat × List (Option Rat)} (h : fixP p sh = some (o, sh'))
    (hg : ∀ k a, sh.get k = some a → a.size = k) :
    Grows sh sh' ∧ (∀ k a, sh'.get k = some a → a.size = k) ∧ Sized sh' 1 p.el.fs.v o.1 ∧
      List.Forall₂ (fun x o => Sized sh' p.el.fs.v x.fs.v o) p.spans o.2 := by
  unfold fixP at h
  cases hs : fixSpans p.el.fs p.spans sh with
  | none => rw [hs] at h; simp at h
  | some r =>
    obtain ⟨os, sh1⟩ := r
    rw [hs] at h
    simp only at h
    cases hf : fixFont ⟨none, 1⟩ p.el sh1 with
    | none => rw [hf] at h; simp at h
    | some r =>
      obtain ⟨o1, sh2⟩ := r
      rw [hf] at h
      simp only [Option.some.injEq, Prod.mk.injEq] at h
      obtain ⟨rfl, rfl⟩ := h
      obtain ⟨k1, k2, k3⟩ := fixSpans_spec hs hg
      obtain ⟨g1, g2, g3⟩ := fixFont_spec hf k2
      exact ⟨k1.trans g1, g2, g3, k3.imp (fun _ _ h => h.mono g1)⟩

theorem fixDoc_spec : ∀ {ps : List FP} {sh sh' : Sheet} {os : List (Option Rat × List (Option Rat))}, fixDoc ps sh = some (os, sh') →
    (∀ k a, sh.get k = some a → a.size = k) →
    Grows sh sh' ∧ (∀ k a, sh'.get k = some a → a.size = k) ∧
      List.Forall₂ (fun p o => Sized sh' 1 p.el.fs.v o.1 ∧ List.Forall₂ (fun x o => Sized sh' p.el.fs.v x.fs.v o) p.spans o.2) ps os
  | [], sh, sh', os, h, hg => by
    simp only [fixDoc, Option.some.injEq, Prod.mk.injEq] at h
    obtain ⟨rfl, rfl⟩ := h
    exact ⟨fun k hk => hk, hg, .nil⟩
  | p :: ps, sh, sh', os, h, hg => by
    simp only [fixDoc] at h
    cases hf : fixP p sh with
    | none => rw [hf] at h; simp at h
    | some r =>
      obtain ⟨o, sh1⟩ := r
      rw [hf] at h
      simp only at h
      cases hr : fixDoc ps sh1 with
      | none => rw [hr] at h; simp at h
      | some r =>
        obtain ⟨os1, sh2⟩ := r
        rw [hr] at h
        simp only [Option.some.injEq, Prod.mk.injEq] at h
        obtain ⟨rfl, rfl⟩ := h
        obtain ⟨g1, g2, g3, g4⟩ := fixP_spec hf hg
        obtain ⟨k1, k2, k3⟩ := fixDoc_spec hr g2
        exact ⟨g1.trans k1, k2, .cons ⟨g3.mono k1, g4.imp (fun _ _ h => h.mono k1)⟩ k3⟩

/-! ### C58 -/

/-- C58.  The generated styles give every p and every span of the converted document the (vertical) font size it had: each
refers to styles that exist, and their percentages of the sizes around it multiply up to its own. -/
theorem C58_font_sizes_kept (ps : List FP) (os : List (Option Rat × List (Option Rat))) (sh : Sheet) (h : fixDoc ps [] = some (os, sh)) :
    List.Forall₂ (fun p o => sizeIn sh 1 o.1 = some p.el.fs.v ∧
      List.Forall₂ (fun x o => sizeIn sh p.el.fs.v o = some x.fs.v) p.spans o.2) ps os := by
  obtain ⟨_, hg, hf⟩ := fixDoc_spec h (by simp [Sheet.get])
  exact hf.imp (fun _ _ h => ⟨h.1.size hg, h.2.imp (fun _ _ h => h.size hg)⟩)

/-- It succeeds whenever no size is zero. -/
theorem C58_sizes_converted (ps : List FP) (hz : ∀ p ∈ ps, ∀ x ∈ p.el :: p.spans, x.fs.v ≠ 0 ∧ x.fs.h ≠ some 0) :
    ∃ r, fixDoc ps [] = some r := by
  have font : ∀ ref x sh, (ref : Dim).v ≠ 0 → ref.h ≠ some 0 → (x : FEl).fs.v ≠ 0 → ∃ r, fixFont ref x sh = some r := by
    intro ref x sh h1 h2 h3
    unfold fixFont
    split
    · exact ⟨_, rfl⟩
    · have : divDim x.fs ref = some (x.fs.v / ref.v * 100) := by
        unfold divDim
        rw [if_neg h1, if_neg h2]
      rw [this]
      simp only
      split
      · exact ⟨_, rfl⟩
      · exact ⟨_, rfl⟩
  have spans : ∀ ref (xs : List FEl) sh, (ref : Dim).v ≠ 0 → ref.h ≠ some 0 → (∀ x ∈ xs, x.fs.v ≠ 0) → ∃ r, fixSpans ref xs sh = some r := by
    intro ref xs
    induction xs with
    | nil => intro sh _ _ _; exact ⟨_, rfl⟩
    | cons x xs ih =>
      intro sh h1 h2 h3
      obtain ⟨⟨o, sh1⟩, hf⟩ := font ref x sh h1 h2 (h3 x List.mem_cons_self)
      obtain ⟨⟨os, sh2⟩, hr⟩ := ih sh1 h1 h2 (fun y hy => h3 y (List.mem_cons_of_mem _ hy))
      simp only [fixSpans, hf, hr]
      exact ⟨_, rfl⟩
  have doc : ∀ (ps : List FP) sh, (∀ p ∈ ps, ∀ x ∈ p.el :: p.spans, x.fs.v ≠ 0 ∧ x.fs.h ≠ some 0) → ∃ r, fixDoc ps sh = some r := by
    intro ps
    induction ps with
    | nil => intro sh _; exact ⟨_, rfl⟩
    | cons p ps ih =>
      intro sh hz
      have hp := hz p List.mem_cons_self
      obtain ⟨⟨os, sh1⟩, hs⟩ := spans p.el.fs p.spans sh (hp _ List.mem_cons_self).1 (hp _ List.mem_cons_self).2
        (fun x hx => (hp x (List.mem_cons_of_mem _ hx)).1)
      obtain ⟨⟨o, sh2⟩, hf⟩ := font ⟨none, 1⟩ p.el sh1 (by decide) (by simp) (hp _ List.mem_cons_self).1
      obtain ⟨⟨os', sh3⟩, hr⟩ := ih sh2 (fun q hq => hz q (List.mem_cons_of_mem _ hq))
      simp only [fixDoc, fixP, hs, hf, hr]
      exact ⟨_, rfl⟩
  exact doc ps [] hz

/-- The percentages of the line heights agree with `L` wherever a style is generated. -/
def Agree (L : Rat → Option Rat) (ref : Rat) (x : FEl) : Prop :=
  x.height.map (fun l => l / x.fs.v * 100) = L (x.fs.v / ref * 100)

theorem fixFont_lh {L : Rat → Option Rat} {ref : Dim} {x : FEl} {sh sh' : Sheet} {o : Option Rat}
    (h : fixFont ref x sh = some (o, sh')) (ha : Agree L ref.v x) (hg : ∀ k a, sh.get k = some a → a.lh = L k) :
    ∀ k a, sh'.get k = some a → a.lh = L k := by
  unfold fixFont at h
  split at h
  · simp only [Option.some.injEq, Prod.mk.injEq] at h
    rw [← h.2]; exact hg
  · cases hd : divDim x.fs ref with
    | none => rw [hd] at h; simp at h
    | some k =>
      rw [hd] at h
      simp only at h
      have hk : k = x.fs.v / ref.v * 100 := by
        unfold divDim at hd
        split at hd
        · simp at hd
        · split at hd
          · simp at hd
          · simp only [Option.some.injEq] at hd; exact hd.symm
      unfold Agree at ha
      rw [← hk] at ha
      have hauto : ∀ j a, (autoStyle sh k).get j = some a → a.lh = L j ∨ (j = k ∧ a.lh = none) := by
        intro j a hj
        unfold autoStyle at hj
        cases hgk : sh.get k with
        | some b => rw [hgk] at hj; exact .inl (hg j a hj)
        | none =>
          rw [hgk] at hj
          simp only [get_append] at hj
          cases hs : sh.get j with
          | some b =>
            rw [hs] at hj
            simp only [Option.some_or, Option.some.injEq] at hj
            subst hj
            exact .inl (hg j b hs)
          | none =>
            rw [hs] at hj
            simp only [Option.none_or] at hj
            split at hj
            · rename_i e
              simp only [Option.some.injEq] at hj
              rw [← hj]
              exact .inr ⟨e.symm, rfl⟩
            · simp at hj
      cases hl : x.lh with
      | cell l =>
        simp only [FEl.height, hl, Option.map_some] at ha
        rw [hl] at h
        simp only at h
        split at h
        · simp at h
        · simp only [Option.some.injEq, Prod.mk.injEq] at h
          intro j a hj
          rw [← h.2, get_setLh] at hj
          cases hs : (autoStyle sh k).get j with
          | none => rw [hs] at hj; simp at hj
          | some b =>
            rw [hs] at hj
            simp only [Option.map_some, Option.some.injEq] at hj
            have hb := get_id hs
            by_cases e : b.id = k
            · rw [if_pos e] at hj
              rw [← hj, ← hb, e, ← ha]
            · rw [if_neg e] at hj
              rcases hauto j b hs with h1 | ⟨h1, _⟩
              · rw [← hj]; exact h1
              · exact absurd (hb.trans h1) e
      | _ =>
        simp only [FEl.height, hl, Option.map_none] at ha
        rw [hl] at h
        simp only [Option.some.injEq, Prod.mk.injEq] at h
        intro j a hj
        rw [← h.2] at hj
        rcases hauto j a hj with h1 | ⟨h1, h2⟩
        · exact h1
        · rw [h1, h2, ← ha]

theorem fixSpans_lh {L : Rat → Option Rat} {ref : Dim} : ∀ {xs : List FEl} {sh sh' : Sheet} {os : List (Option Rat)},
    fixSpans ref xs sh = some (os, sh') → (∀ x ∈ xs, Agree L ref.v x) → (∀ k a, sh.get k = some a → a.lh = L k) →
    ∀ k a, sh'.get k = some a → a.lh = L k
  | [], sh, sh', os, h, _, hg => by
    simp only [fixSpans, Option.some.injEq, Prod.mk.injEq] at h
    rw [← h.2]; exact hg
  | x :: xs, sh, sh', os, h, ha, hg => by
    simp only [fixSpans] at h
    cases hf : fixFont ref x sh with
    | none => rw [hf] at h; simp at h
    | some r =>
      obtain ⟨o, sh1⟩ := r
      rw [hf] at h
      simp only at h
      cases hr : fixSpans ref xs sh1 with
      | none => rw [hr] at h; simp at h
      | some r =>
        obtain ⟨os1, sh2⟩ := r
        rw [hr] at h
        simp only [Option.some.injEq, Prod.mk.injEq] at h
        rw [← h.2]
        exact fixSpans_lh hr (fun y hy => ha y (List.mem_cons_of_mem _ hy)) (fixFont_lh hf (ha x List.mem_cons_self) hg)

theorem fixDoc_lh {L : Rat → Option Rat} : ∀ {ps : List FP} {sh sh' : Sheet} {os : List (Option Rat × List (Option Rat))},
    fixDoc ps sh = some (os, sh') → (∀ p ∈ ps, Agree L 1 p.el ∧ ∀ x ∈ p.spans, Agree L p.el.fs.v x) →
    (∀ k a, sh.get k = some a → a.lh = L k) → ∀ k a, sh'.get k = some a → a.lh = L k
  | [], sh, sh', os, h, _, hg => by
    simp only [fixDoc, Option.some.injEq, Prod.mk.injEq] at h
    rw [← h.2]; exact hg
  | p :: ps, sh, sh', os, h, ha, hg => by
    simp only [fixDoc] at h
    cases hf : fixP p sh with
    | none => rw [hf] at h; simp at h
    | some r =>
      obtain ⟨o, sh1⟩ := r
      rw [hf] at h
      simp only at h
      cases hr : fixDoc ps sh1 with
      | none => rw [hr] at h; simp at h
      | some r =>
        obtain ⟨os1, sh2⟩ := r
        rw [hr] at h
        simp only [Option.some.injEq, Prod.mk.injEq] at h
        rw [← h.2]
        refine fixDoc_lh hr (fun q hq => ha q (List.mem_cons_of_mem _ hq)) ?_
        obtain ⟨h1, h2⟩ := ha p List.mem_cons_self
        unfold fixP at hf
        cases hs : fixSpans p.el.fs p.spans sh with
        | none => rw [hs] at hf; simp at hf
        | some r =>
          obtain ⟨os2, sh3⟩ := r
          rw [hs] at hf
          simp only at hf
          cases hff : fixFont ⟨none, 1⟩ p.el sh3 with
          | none => rw [hff] at hf; simp at hf
          | some r =>
            obtain ⟨o1, sh4⟩ := r
            rw [hff] at hf
            simp only [Option.some.injEq, Prod.mk.injEq] at hf
            rw [← hf.2]
            exact fixFont_lh hff h1 (fixSpans_lh hs h2 hg)

/-- C58, line heights: an element that gets a generated style keeps its line height, provided that elements of the same
relative size have the same relative line height (`Agree`).  Missing: elements that differ in this
(`C58_false_shared_style`) and elements whose size is that around them (`C58_false_default_size`). -/
theorem C58_line_heights_kept_partial (L : Rat → Option Rat) (ps : List FP) (os : List (Option Rat × List (Option Rat))) (sh : Sheet)
    (h : fixDoc ps [] = some (os, sh)) (ha : ∀ p ∈ ps, Agree L 1 p.el ∧ ∀ x ∈ p.spans, Agree L p.el.fs.v x)
    (hz : ∀ p ∈ ps, ∀ x ∈ p.el :: p.spans, x.fs.v ≠ 0) :
    List.Forall₂ (fun p o => (o.1.isSome = true → heightIn sh p.el.fs.v o.1 = p.el.height) ∧
      List.Forall₂ (fun x o => o.isSome = true → heightIn sh x.fs.v o = x.height) p.spans o.2) ps os := by
  obtain ⟨_, _, hf⟩ := fixDoc_spec h (by simp [Sheet.get])
  have hl := fixDoc_lh h ha (by simp [Sheet.get])
  have one : ∀ (around : Rat) (x : FEl) (o : Option Rat), x.fs.v ≠ 0 → Agree L around x → Sized sh around x.fs.v o → o.isSome = true →
      heightIn sh x.fs.v o = x.height := by
    intro around x o hx hag hs ho
    cases o with
    | none => simp at ho
    | some k =>
      obtain ⟨_, hk, hsome⟩ := hs
      unfold heightIn
      simp only
      cases hg : sh.get k with
      | none => rw [hg] at hsome; simp at hsome
      | some a =>
        simp only [Option.bind_some]
        rw [hl k a hg]
        unfold Agree at hag
        rw [← hk] at hag
        rw [← hag]
        cases x.height with
        | none => rfl
        | some l =>
          simp only [Option.map_some, Option.some.injEq]
          grind
  have spans : ∀ (around : Rat) (xs : List FEl) (os : List (Option Rat)), List.Forall₂ (fun x o => Sized sh around x.fs.v o) xs os →
      (∀ x ∈ xs, x.fs.v ≠ 0 ∧ Agree L around x) → List.Forall₂ (fun x o => o.isSome = true → heightIn sh x.fs.v o = x.height) xs os := by
    intro around xs os hf
    induction hf with
    | nil => intro _; exact .nil
    | @cons x o xs os h1 _ ih =>
      intro hh
      exact .cons (one around x o (hh x List.mem_cons_self).1 (hh x List.mem_cons_self).2 h1) (ih (fun y hy => hh y (List.mem_cons_of_mem _ hy)))
  clear h
  induction hf with
  | nil => exact .nil
  | @cons p o ps os h1 _ ih =>
    obtain ⟨a1, a2⟩ := ha p List.mem_cons_self
    have hzp := hz p List.mem_cons_self
    refine .cons ⟨one 1 p.el o.1 (hzp _ List.mem_cons_self) a1 h1.1, spans _ _ _ h1.2 (fun x hx => ⟨hzp x (List.mem_cons_of_mem _ hx), a2 x hx⟩)⟩ ?_
    exact ih (fun q hq => ha q (List.mem_cons_of_mem _ hq)) (fun q hq => hz q (List.mem_cons_of_mem _ hq))

/-- A p of two cells with a span of one cell and one of two, and a p of one cell with a span of two. -/
def exFonts : List FP :=
  [⟨⟨⟨none, 2⟩, .cell (5/2)⟩, [⟨⟨none, 1⟩, .normal⟩, ⟨⟨none, 2⟩, .normal⟩]⟩, ⟨⟨⟨none, 1⟩, .normal⟩, [⟨⟨none, 2⟩, .cell (5/2)⟩]⟩]

example : fixDoc exFonts [] = some ([(some 200, [some 50, none]), (none, [some 200])], [⟨50, 50, none⟩, ⟨200, 200, some 125⟩]) := by
  decide +kernel

example : ∀ p ∈ exFonts, ∀ x ∈ p.el :: p.spans, x.fs.v ≠ 0 ∧ x.fs.h ≠ some 0 := by
  intro p hp x hx
  simp only [exFonts, List.mem_cons, List.not_mem_nil, or_false] at hp
  rcases hp with rfl | rfl <;> simp only [List.mem_cons, List.not_mem_nil, or_false] at hx
  · rcases hx with rfl | rfl | rfl <;> decide
  · rcases hx with rfl | rfl <;> decide

example : ∀ p ∈ exFonts, Agree (fun k => if k = 200 then some 125 else none) 1 p.el ∧
    ∀ x ∈ p.spans, Agree (fun k => if k = 200 then some 125 else none) p.el.fs.v x := by
  intro p hp
  simp only [exFonts, List.mem_cons, List.not_mem_nil, or_false] at hp
  rcases hp with rfl | rfl
  · refine ⟨by unfold Agree; decide +kernel, ?_⟩
    intro x hx
    simp only [List.mem_cons, List.not_mem_nil, or_false] at hx
    rcases hx with rfl | rfl <;> (unfold Agree; decide +kernel)
  · refine ⟨by unfold Agree; decide +kernel, ?_⟩
    intro x hx
    simp only [List.mem_cons, List.not_mem_nil, or_false] at hx
    subst hx
    unfold Agree; decide +kernel

/-- Two p of the same size and different line heights share a style, and the first gets the line height of the second. -/
theorem C58_false_shared_style :
    fixDoc [⟨⟨⟨none, 2⟩, .cell 3⟩, []⟩, ⟨⟨⟨none, 2⟩, .cell 4⟩, []⟩] [] = some ([(some 200, []), (some 200, [])], [⟨200, 200, some 200⟩]) ∧
    heightIn [⟨200, 200, some 200⟩] 2 (some 200) = some 4 := by decide +kernel

/-- A p of the default size loses its line height. -/
theorem C58_false_default_size : fixDoc [⟨⟨⟨none, 1⟩, .cell 2⟩, []⟩] [] = some ([(none, [])], []) := by decide +kernel

/-- A horizontal size is lost: the generated style has the vertical percentage only. -/
theorem C58_false_horizontal_size : fixDoc [⟨⟨⟨some 3, 2⟩, .normal⟩, []⟩] [] = some ([(some 200, [])], [⟨200, 200, none⟩]) := by decide +kernel

/-- A span in a p of size zero ends the conversion. -/
theorem C58_false_zero_size : fixDoc [⟨⟨⟨none, 0⟩, .normal⟩, [⟨⟨none, 1⟩, .normal⟩]⟩] [] = none := by decide +kernel

end Verif.Convert
