import Verif.Convert.Whole
import Verif.Convert.FontProps
import Verif.Convert.Props
import Verif.Style.DocProps
import Verif.Doc.TimingPath

/-! Lemmas about the conversion of whole documents. -/
namespace Verif.Convert

open Verif.Doc Verif.Style

/-! ### The relation between the two trees -/

/-- The generated style of an element gives its size. -/
def FontOk (sh : Convert.Sheet) (parent : Option PLab) (x : PLab) (o : Option Rat) : Prop :=
  match x.att.kind with
  | .p => ∃ f, felOf x = some f ∧ Sized sh 1 f.fs.v o
  | .span => ∃ q f p, parent = some q ∧ felOf x = some f ∧ felOf q = some p ∧ Sized sh p.fs.v f.fs.v o
  | _ => o = none

def FontOkN (sh : Convert.Sheet) (parent : PLab) (k : Node PLab) (o : Option Rat) : Prop :=
  match k with
  | .elem x _ => FontOk sh (some parent) x o
  | _ => o = none

mutual
/-- `n'` is the converted `n`, before a generated style is put on it. -/
def Same (m : Media) (nm : Rat → Name) (sh : Convert.Sheet) : Node PLab → Node Att → Prop
  | .text s, n' => n' = .text s
  | .br, n' => n' = .br
  | .elem x ks, n' => ∃ a ks', n' = .elem a ks' ∧ convAtt m x.att = .ok a ∧ ks'.all (fitsD x.att.kind) = true ∧ SameL m nm sh x ks ks'
def SameL (m : Media) (nm : Rat → Name) (sh : Convert.Sheet) (parent : PLab) : List (Node PLab) → List (Node Att) → Prop
  | [], ks' => ks' = []
  | k :: ks, ks' => ∃ k0 o ks1, ks' = addRef nm o k0 :: ks1 ∧ Same m nm sh k k0 ∧ FontOkN sh parent k o ∧ SameL m nm sh parent ks ks1
end

theorem FontOk.mono {sh sh' : Convert.Sheet} (h : Grows sh sh') {parent : Option PLab} {x : PLab} {o : Option Rat}
    (hf : FontOk sh parent x o) : FontOk sh' parent x o := by
  unfold FontOk at *
  cases hk : x.att.kind <;> rw [hk] at hf
  · exact hf
  · exact hf
  · obtain ⟨f, h1, h2⟩ := hf
    exact ⟨f, h1, h2.mono h⟩
  · obtain ⟨q, f, p, h0, h1, h2, h3⟩ := hf
    exact ⟨q, f, p, h0, h1, h2, h3.mono h⟩

theorem FontOkN.mono {sh sh' : Convert.Sheet} (h : Grows sh sh') {parent : PLab} {k : Node PLab} {o : Option Rat}
    (hf : FontOkN sh parent k o) : FontOkN sh' parent k o := by
  cases k with
  | elem x ks => exact FontOk.mono h hf
  | text s => exact hf
  | br => exact hf

mutual
theorem Same.mono {m : Media} {nm : Rat → Name} {sh sh' : Convert.Sheet} (h : Grows sh sh') : ∀ {n : Node PLab} {n' : Node Att},
    Same m nm sh n n' → Same m nm sh' n n'
  | .text s, n', hs => by rw [Same] at *; exact hs
  | .br, n', hs => by rw [Same] at *; exact hs
  | .elem x ks, n', hs => by
    rw [Same] at *
    obtain ⟨a, ks', h1, h2, h3, h4⟩ := hs
    exact ⟨a, ks', h1, h2, h3, SameL.mono h h4⟩
theorem SameL.mono {m : Media} {nm : Rat → Name} {sh sh' : Convert.Sheet} (h : Grows sh sh') {parent : PLab} : ∀ {ks : List (Node PLab)}
    {ks' : List (Node Att)}, SameL m nm sh parent ks ks' → SameL m nm sh' parent ks ks'
  | [], ks', hs => by rw [SameL] at *; exact hs
  | k :: ks, ks', hs => by
    rw [SameL] at *
    obtain ⟨k0, o, ks1, h1, h2, h3, h4⟩ := hs
    exact ⟨k0, o, ks1, h1, Same.mono h h2, h3.mono h, SameL.mono h h4⟩
end

/-- Sizes of generated styles are their keys. -/
def Keyed (sh : Convert.Sheet) : Prop := ∀ k a, sh.get k = some a → a.size = k

theorem fixNode_spec {nm : Rat → Name} {parent : PLab} {k : Node PLab} {k0 k' : Node Att} {sh sh' : Convert.Sheet}
    (h : fixNode nm parent k k0 sh = .ok (k', sh')) (hg : Keyed sh) :
    ∃ o, k' = addRef nm o k0 ∧ Grows sh sh' ∧ Keyed sh' ∧ FontOkN sh' parent k o := by
  have hnone : ∀ n : Node Att, addRef nm none n = n := by
    intro n; cases n <;> rfl
  have triv : k' = k0 → sh' = sh → FontOkN sh' parent k none →
      ∃ o, k' = addRef nm o k0 ∧ Grows sh sh' ∧ Keyed sh' ∧ FontOkN sh' parent k o := by
    intro h1 h2 h3
    refine ⟨none, by rw [hnone, h1], ?_, by rw [h2]; exact hg, h3⟩
    rw [h2]; exact fun _ hk => hk
  cases k with
  | text s =>
    simp only [fixNode, Except.ok.injEq, Prod.mk.injEq] at h
    exact triv h.1.symm h.2.symm rfl
  | br =>
    simp only [fixNode, Except.ok.injEq, Prod.mk.injEq] at h
    exact triv h.1.symm h.2.symm rfl
  | elem x ks =>
    simp only [fixNode] at h
    cases hk : x.att.kind <;> rw [hk] at h <;> simp only at h
    · simp only [Except.ok.injEq, Prod.mk.injEq] at h
      exact triv h.1.symm h.2.symm (by simp [FontOkN, FontOk, hk])
    · simp only [Except.ok.injEq, Prod.mk.injEq] at h
      exact triv h.1.symm h.2.symm (by simp [FontOkN, FontOk, hk])
    · cases hf : felOf x with
      | none => rw [hf] at h; simp at h
      | some f =>
        rw [hf] at h
        simp only at h
        cases hx : fixFont ⟨none, 1⟩ f sh with
        | none => rw [hx] at h; simp at h
        | some r =>
          obtain ⟨o, sh1⟩ := r
          rw [hx] at h
          simp only [Except.ok.injEq, Prod.mk.injEq] at h
          obtain ⟨h1, h2, h3⟩ := fixFont_spec hx hg
          rw [← h.2]
          exact ⟨o, h.1.symm, h1, h2, by simpa only [FontOkN, FontOk, hk] using ⟨f, hf, h3⟩⟩
    · cases hf : felOf x with
      | none => rw [hf] at h; simp at h
      | some f =>
        cases hp : felOf parent with
        | none => rw [hf, hp] at h; simp at h
        | some p =>
          rw [hf, hp] at h
          simp only at h
          cases hx : fixFont p.fs f sh with
          | none => rw [hx] at h; simp at h
          | some r =>
            obtain ⟨o, sh1⟩ := r
            rw [hx] at h
            simp only [Except.ok.injEq, Prod.mk.injEq] at h
            obtain ⟨h1, h2, h3⟩ := fixFont_spec hx hg
            rw [← h.2]
            exact ⟨o, h.1.symm, h1, h2, by simpa only [FontOkN, FontOk, hk] using ⟨parent, f, p, rfl, hf, hp, h3⟩⟩

theorem wconv_elem {m : Media} {nm : Rat → Name} {x : PLab} {kids : List (Node PLab)} {sh : Convert.Sheet} {r : Node Att × Convert.Sheet}
    (h : wconv m nm (.elem x kids) sh = .ok r) : ∃ ks a, wconvL m nm x kids sh = .ok (ks, r.2) ∧ convAtt m x.att = .ok a ∧
      ks.all (fitsD x.att.kind) = true ∧ r.1 = .elem a ks := by
  rw [wconv] at h
  cases h1 : wconvL m nm x kids sh with
  | error e => rw [h1] at h; cases h
  | ok q =>
    obtain ⟨ks, sh1⟩ := q
    rw [h1] at h
    simp only at h
    cases h2 : convAtt m x.att with
    | error e => rw [h2] at h; cases h
    | ok a =>
      rw [h2] at h
      simp only at h
      split at h
      · rename_i h3
        cases h
        exact ⟨ks, a, rfl, rfl, h3, rfl⟩
      · cases h

theorem wconvL_cons {m : Media} {nm : Rat → Name} {parent : PLab} {k : Node PLab} {ks : List (Node PLab)} {sh : Convert.Sheet}
    {r : List (Node Att) × Convert.Sheet} (h : wconvL m nm parent (k :: ks) sh = .ok r) :
    ∃ k0 sh1 k' sh2 ks', wconv m nm k sh = .ok (k0, sh1) ∧ fixNode nm parent k k0 sh1 = .ok (k', sh2) ∧
      wconvL m nm parent ks sh2 = .ok (ks', r.2) ∧ r.1 = k' :: ks' := by
  rw [wconvL] at h
  cases h1 : wconv m nm k sh with
  | error e => rw [h1] at h; cases h
  | ok q =>
    obtain ⟨k0, sh1⟩ := q
    rw [h1] at h
    simp only at h
    cases h2 : fixNode nm parent k k0 sh1 with
    | error e => rw [h2] at h; cases h
    | ok q =>
      obtain ⟨k', sh2⟩ := q
      rw [h2] at h
      simp only at h
      cases h3 : wconvL m nm parent ks sh2 with
      | error e => rw [h3] at h; cases h
      | ok q =>
        obtain ⟨ks', sh3⟩ := q
        rw [h3] at h
        cases h
        exact ⟨k0, sh1, k', sh2, ks', rfl, h2, h3, rfl⟩

mutual
theorem wconv_same {m : Media} {nm : Rat → Name} : ∀ {n : Node PLab} {sh : Convert.Sheet} {r : Node Att × Convert.Sheet},
    wconv m nm n sh = .ok r → Keyed sh → Grows sh r.2 ∧ Keyed r.2 ∧ Same m nm r.2 n r.1
  | .text s, sh, r, h, hg => by rw [wconv] at h; cases h; exact ⟨fun _ hk => hk, hg, by rw [Same]⟩
  | .br, sh, r, h, hg => by rw [wconv] at h; cases h; exact ⟨fun _ hk => hk, hg, by rw [Same]⟩
  | .elem x kids, sh, r, h, hg => by
    obtain ⟨ks, a, h1, h2, h3, h4⟩ := wconv_elem h
    obtain ⟨g1, g2, g3⟩ := wconvL_same h1 hg
    refine ⟨g1, g2, ?_⟩
    rw [Same]
    exact ⟨a, ks, h4, h2, h3, g3⟩
theorem wconvL_same {m : Media} {nm : Rat → Name} {parent : PLab} : ∀ {ks : List (Node PLab)} {sh : Convert.Sheet}
    {r : List (Node Att) × Convert.Sheet}, wconvL m nm parent ks sh = .ok r → Keyed sh → Grows sh r.2 ∧ Keyed r.2 ∧ SameL m nm r.2 parent ks r.1
  | [], sh, r, h, hg => by rw [wconvL] at h; cases h; exact ⟨fun _ hk => hk, hg, by rw [SameL]⟩
  | k :: ks, sh, r, h, hg => by
    obtain ⟨k0, sh1, k', sh2, ks', h1, h2, h3, h4⟩ := wconvL_cons h
    obtain ⟨g1, g2, g3⟩ := wconv_same h1 hg
    obtain ⟨o, e1, e2, e3, e4⟩ := fixNode_spec h2 g2
    obtain ⟨f1, f2, f3⟩ := wconvL_same h3 e3
    refine ⟨(g1.trans e2).trans f1, f2, ?_⟩
    rw [SameL]
    exact ⟨k0, o, ks', by rw [h4, e1], g3.mono (e2.trans f1), e4.mono f1, f3⟩
end

/-! ### Positions -/

/-- The node at a position, given by the child to take at each step, with the elements around it. -/
def pick {α : Type} : Node α → List Nat → Option (List α × Node α)
  | n, [] => some ([], n)
  | .elem x kids, i :: p =>
    match kids[i]? with
    | none => none
    | some k => (pick k p).map (fun r => (x :: r.1, r.2))
  | _, _ :: _ => none

theorem pick_reach {α : Type} : ∀ {p : List Nat} {n : Node α} {anc : List α} {k : Node α}, pick n p = some (anc, k) → Reach n anc k
  | [], n, anc, k, h => by
    rw [pick] at h
    cases h
    exact .here
  | i :: p, .elem x kids, anc, k, h => by
    rw [pick] at h
    cases hk : kids[i]? with
    | none => rw [hk] at h; cases h
    | some q =>
      rw [hk] at h
      simp only at h
      cases hq : pick q p with
      | none => rw [hq] at h; cases h
      | some r =>
        rw [hq] at h
        cases h
        exact reach_trans (anc := []) .here (List.mem_of_getElem? hk) (pick_reach hq)
  | _ :: _, .text _, _, _, h => by cases h
  | _ :: _, .br, _, _, h => by cases h

/-- One element and its conversion. -/
def Step (m : Media) (nm : Rat → Name) (sh : Convert.Sheet) (parent : Option PLab) (y : PLab) (b : Att) : Prop :=
  ∃ a o, convAtt m y.att = .ok a ∧ b = { a with style := (o.map nm).toList ++ a.style } ∧ FontOk sh parent y o ∧
    ∀ q, parent = some q → fitsD q.att.kind (.elem b []) = true

/-- The elements down to one, and their conversions. -/
def Path (m : Media) (nm : Rat → Name) (sh : Convert.Sheet) : Option PLab → List PLab → List Att → Prop
  | _, [], bs => bs = []
  | parent, y :: ys, bs => ∃ b bs', bs = b :: bs' ∧ Step m nm sh parent y b ∧ Path m nm sh (some y) ys bs'

theorem sameL_get {m : Media} {nm : Rat → Name} {sh : Convert.Sheet} {parent : PLab} : ∀ {ks : List (Node PLab)} {ks' : List (Node Att)} {i : Nat}
    {k : Node PLab}, SameL m nm sh parent ks ks' → ks[i]? = some k →
    ∃ k0 o, ks'[i]? = some (addRef nm o k0) ∧ Same m nm sh k k0 ∧ FontOkN sh parent k o
  | [], ks', i, k, _, hk => by simp at hk
  | q :: ks, ks', i, k, h, hk => by
    rw [SameL] at h
    obtain ⟨k0, o, ks1, h1, h2, h3, h4⟩ := h
    cases i with
    | zero =>
      simp only [List.getElem?_cons_zero, Option.some.injEq] at hk
      subst hk
      exact ⟨k0, o, by rw [h1]; rfl, h2, h3⟩
    | succ i =>
      simp only [List.getElem?_cons_succ] at hk
      obtain ⟨k1, o1, g1, g2, g3⟩ := sameL_get h4 hk
      exact ⟨k1, o1, by rw [h1]; exact g1, g2, g3⟩

theorem pick_path {m : Media} {nm : Rat → Name} {sh : Convert.Sheet} : ∀ {p : List Nat} {parent : Option PLab} {x : PLab} {ks : List (Node PLab)}
    {n0 : Node Att} {o : Option Rat} {anc : List PLab} {e : PLab} {kids : List (Node PLab)},
    Same m nm sh (.elem x ks) n0 → FontOk sh parent x o → (∀ q, parent = some q → fitsD q.att.kind (addRef nm o n0) = true) →
    pick (.elem x ks) p = some (anc, .elem e kids) →
    ∃ anc' a kids', pick (addRef nm o n0) p = some (anc', .elem a kids') ∧ Path m nm sh parent (anc ++ [e]) (anc' ++ [a]) ∧
      SameL m nm sh e kids kids'
  | [], parent, x, ks, n0, o, anc, e, kids, hs, hf, hfit, hp => by
    rw [pick] at hp
    cases hp
    rw [Same] at hs
    obtain ⟨a, ks', h1, h2, h3, h4⟩ := hs
    subst h1
    refine ⟨[], { a with style := (o.map nm).toList ++ a.style }, ks', rfl, ?_, h4⟩
    refine ⟨_, [], rfl, ⟨a, o, h2, rfl, hf, ?_⟩, rfl⟩
    intro q hq
    have := hfit q hq
    simpa [addRef, fitsD] using this
  | i :: p, parent, x, ks, n0, o, anc, e, kids, hs, hf, hfit, hp => by
    rw [pick] at hp
    rw [Same] at hs
    obtain ⟨a, ks', h1, h2, h3, h4⟩ := hs
    subst h1
    cases hk : ks[i]? with
    | none => rw [hk] at hp; cases hp
    | some k =>
      rw [hk] at hp
      simp only at hp
      cases hq : pick k p with
      | none => rw [hq] at hp; cases hp
      | some r =>
        rw [hq] at hp
        simp only [Option.map_some, Option.some.injEq, Prod.mk.injEq] at hp
        obtain ⟨hp1, hp2⟩ := hp
        obtain ⟨k0, o1, g1, g2, g3⟩ := sameL_get h4 hk
        cases k with
        | text s => cases p <;> simp [pick] at hq; rw [← hq] at hp2; cases hp2
        | br => cases p <;> simp [pick] at hq; rw [← hq] at hp2; cases hp2
        | elem y ys =>
          obtain ⟨r1, r2⟩ := r
          simp only at hp1 hp2
          subst hp2
          have hfit1 : ∀ q, some x = some q → fitsD q.att.kind (addRef nm o1 k0) = true := by
            intro q hq
            cases hq
            exact List.all_eq_true.1 h3 _ (List.mem_of_getElem? g1)
          obtain ⟨anc', b, kids', e1, e2, e3⟩ := pick_path (parent := some x) g2 g3 hfit1 hq
          refine ⟨{ a with style := (o.map nm).toList ++ a.style } :: anc', b, kids', ?_, ?_, e3⟩
          · rw [addRef, pick, g1]
            simp only
            rw [e1]
            rfl
          · rw [← hp1]
            refine ⟨_, anc' ++ [b], rfl, ⟨a, o, h2, rfl, hf, ?_⟩, e2⟩
            intro q hq
            have := hfit q hq
            simpa [addRef, fitsD] using this

end Verif.Convert
