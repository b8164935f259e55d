import Verif.Convert.WholeCases

/-! Line heights in converted documents (C74). -/
namespace Verif.Convert

open Verif.Doc Verif.Style

/-! ### Specification -/

/-- The line height, in cells, that a value stands for in an element of font size `v`. -/
def dHeight (v : Rat) : Option LH → Option Rat
  | some (.pct l) => some (l / 100 * v)
  | some (.cell l) => some l
  | _ => none

/-- The line height of an element in relation to its font size is the one that `L` has for its font size in relation to the size around
it: one cell for a p, the size of the p for a span. -/
def AgreeKid (L : Rat → Option Rat) (parent : PLab) : Node PLab → Prop
  | .elem x _ => ∀ f, felOf x = some f →
      (x.att.kind = .p → Agree L 1 f) ∧ (x.att.kind = .span → ∀ g, felOf parent = some g → Agree L g.fs.v f)
  | _ => True

mutual
/-- All elements in an element agree with `L`: elements of the same relative size have the same relative line height. -/
def AgreeIn (L : Rat → Option Rat) : Node PLab → Prop
  | .elem x kids => AgreeInL L x kids
  | _ => True
def AgreeInL (L : Rat → Option Rat) (parent : PLab) : List (Node PLab) → Prop
  | [] => True
  | k :: ks => AgreeKid L parent k ∧ AgreeIn L k ∧ AgreeInL L parent ks
end

/-! ### Lemmas -/

def LhOk (L : Rat → Option Rat) (sh : Convert.Sheet) : Prop := ∀ k a, sh.get k = some a → a.lh = L k

theorem fixNode_lh {L : Rat → Option Rat} {nm : Rat → Name} {parent : PLab} {k : Node PLab} {k0 k' : Node Att} {sh sh' : Convert.Sheet}
    (h : fixNode nm parent k k0 sh = .ok (k', sh')) (ha : AgreeKid L parent k) (hg : LhOk L sh) : LhOk L sh' := by
  cases k with
  | text s => simp only [fixNode, Except.ok.injEq, Prod.mk.injEq] at h; rw [← h.2]; exact hg
  | br => simp only [fixNode, Except.ok.injEq, Prod.mk.injEq] at h; rw [← h.2]; exact hg
  | elem x ks =>
    simp only [AgreeKid] at ha
    simp only [fixNode] at h
    cases hk : x.att.kind <;> rw [hk] at h <;> simp only at h
    · simp only [Except.ok.injEq, Prod.mk.injEq] at h; rw [← h.2]; exact hg
    · simp only [Except.ok.injEq, Prod.mk.injEq] at h; rw [← h.2]; exact hg
    · cases hf : felOf x with
      | none => rw [hf] at h; simp at h
      | some f =>
        rw [hf] at h
        simp only at h
        cases hx : fixFont ⟨none, 1⟩ f sh with
        | none => rw [hx] at h; simp at h
        | some r =>
          obtain ⟨o, sh1⟩ := r
          rw [hx] at h
          simp only [Except.ok.injEq, Prod.mk.injEq] at h
          rw [← h.2]
          exact fixFont_lh hx ((ha f hf).1 hk) hg
    · cases hf : felOf x with
      | none => rw [hf] at h; simp at h
      | some f =>
        cases hp : felOf parent with
        | none => rw [hf, hp] at h; simp at h
        | some p =>
          rw [hf, hp] at h
          simp only at h
          cases hx : fixFont p.fs f sh with
          | none => rw [hx] at h; simp at h
          | some r =>
            obtain ⟨o, sh1⟩ := r
            rw [hx] at h
            simp only [Except.ok.injEq, Prod.mk.injEq] at h
            rw [← h.2]
            exact fixFont_lh hx ((ha f hf).2 hk p hp) hg

mutual
theorem wconv_lh {L : Rat → Option Rat} {m : Media} {nm : Rat → Name} : ∀ {n : Node PLab} {sh : Convert.Sheet} {r : Node Att × Convert.Sheet},
    wconv m nm n sh = .ok r → AgreeIn L n → LhOk L sh → LhOk L r.2
  | .text s, sh, r, h, _, hg => by rw [wconv] at h; cases h; exact hg
  | .br, sh, r, h, _, hg => by rw [wconv] at h; cases h; exact hg
  | .elem x kids, sh, r, h, ha, hg => by
    obtain ⟨ks, a, h1, h2, h3, h4⟩ := wconv_elem h
    rw [AgreeIn] at ha
    exact wconvL_lh h1 ha hg
theorem wconvL_lh {L : Rat → Option Rat} {m : Media} {nm : Rat → Name} {parent : PLab} : ∀ {ks : List (Node PLab)} {sh : Convert.Sheet}
    {r : List (Node Att) × Convert.Sheet}, wconvL m nm parent ks sh = .ok r → AgreeInL L parent ks → LhOk L sh → LhOk L r.2
  | [], sh, r, h, _, hg => by rw [wconvL] at h; cases h; exact hg
  | k :: ks, sh, r, h, ha, hg => by
    obtain ⟨k0, sh1, k', sh2, ks', h1, h2, h3, h4⟩ := wconvL_cons h
    rw [AgreeInL] at ha
    exact wconvL_lh (r := (ks', r.2)) h3 ha.2.2 (fixNode_lh h2 ha.1 (wconv_lh h1 ha.2.1 hg))
end

theorem agree_get {L : Rat → Option Rat} {parent : PLab} : ∀ {ks : List (Node PLab)} {i : Nat} {k : Node PLab}, AgreeInL L parent ks →
    ks[i]? = some k → AgreeKid L parent k ∧ AgreeIn L k
  | [], i, k, _, h => by simp at h
  | q :: ks, i, k, ha, h => by
    rw [AgreeInL] at ha
    cases i with
    | zero =>
      simp only [List.getElem?_cons_zero, Option.some.injEq] at h
      rw [← h]; exact ⟨ha.1, ha.2.1⟩
    | succ i => exact agree_get ha.2.2 (by simpa using h)

/-- An element with elements around it agrees. -/
theorem agree_pick {L : Rat → Option Rat} : ∀ {p : List Nat} {n : Node PLab} {l : List PLab} {q e : PLab} {kids : List (Node PLab)},
    AgreeIn L n → pick n p = some (l ++ [q], .elem e kids) → AgreeKid L q (.elem e kids)
  | [], n, l, q, e, kids, _, h => by rw [pick] at h; cases l <;> cases h
  | i :: p, .text _, _, _, _, _, _, h => by cases h
  | i :: p, .br, _, _, _, _, _, h => by cases h
  | i :: p, .elem x ks, l, q, e, kids, ha, h => by
    rw [pick] at h
    cases hk : ks[i]? with
    | none => rw [hk] at h; cases h
    | some k =>
      rw [hk] at h
      simp only at h
      cases hq : pick k p with
      | none => rw [hq] at h; cases h
      | some r =>
        rw [hq] at h
        simp only [Option.map_some, Option.some.injEq, Prod.mk.injEq] at h
        obtain ⟨r1, r2⟩ := r
        simp only at h
        rw [AgreeIn] at ha
        obtain ⟨a1, a2⟩ := agree_get ha hk
        cases l with
        | nil =>
          simp only [List.nil_append, List.cons.injEq] at h
          obtain ⟨⟨h1, h2⟩, h3⟩ := h
          cases p with
          | nil =>
            rw [pick] at hq
            cases hq
            rw [← h1, ← h3]; exact a1
          | cons j p =>
            rw [h2] at hq
            cases k with
            | text s => cases hq
            | br => cases hq
            | elem y ys =>
              rw [pick] at hq
              cases hy : ys[j]? with
              | none => rw [hy] at hq; cases hq
              | some w =>
                rw [hy] at hq
                simp only at hq
                cases hw : pick w p with
                | none => rw [hw] at hq; cases hq
                | some r => rw [hw] at hq; cases hq
        | cons y l =>
          simp only [List.cons_append, List.cons.injEq] at h
          obtain ⟨⟨h1, h2⟩, h3⟩ := h
          rw [h2, h3] at hq
          exact agree_pick a2 hq

theorem path_last {m : Media} {nm : Rat → Name} {sh : Convert.Sheet} : ∀ {l : List PLab} {parent : Option PLab} {q e : PLab} {bs : List Att} {b : Att},
    Path m nm sh parent (l ++ [q] ++ [e]) (bs ++ [b]) → Step m nm sh (some q) e b
  | [], parent, q, e, bs, b, h => by
    simp only [List.nil_append, List.singleton_append, Path] at h
    obtain ⟨b1, bs1, h1, _, b2, bs2, h2, h3, h4⟩ := h
    rw [h2, h4] at h1
    have : b = b2 := by
      have := congrArg List.getLast? h1
      simpa using this
    rw [this]; exact h3
  | y :: l, parent, q, e, bs, b, h => by
    simp only [List.cons_append, Path] at h
    obtain ⟨b1, bs1, h1, _, h2⟩ := h
    cases bs with
    | nil =>
      simp only [List.nil_append, List.cons.injEq] at h1
      rw [← h1.2] at h2
      exfalso
      cases l with
      | nil => simp [Path] at h2
      | cons w l => simp [Path] at h2
    | cons c bs =>
      simp only [List.cons_append, List.cons.injEq] at h1
      rw [← h1.2] at h2
      exact path_last h2

/-- C74, line heights, partial: a p or span that has a style generated for its size finds there a line height that amounts to the one computed in
the validated document, provided that elements of the same relative size agree in their relative line height.  Missing: elements that differ
in this (`C58_false_shared_style`) and elements that have the size around them (`C58_false_default_size`). -/
theorem C74_line_heights_partial (L : Rat → Option Rat) (m : Media) (pr : Rat → List Char) (hpr : Function.Injective pr) (hd : Head) (res : Rat × Rat)
    (place : Name → List Char × List Char) (a0 : Att) (kids0 : List (Node Att)) (hk : a0.kind = .body)
    (hs : shaped (.elem a0 kids0) = true) (hc : NoClash hd)
    (infos : List RInfo) (doc : Node PLab) (hdoc : presentDoc hd (.elem a0 kids0) = .ok (infos, doc)) (hag : AgreeIn L doc)
    (d : DDoc) (out : Node Att) (h : convertDoc m pr hd res place doc = .ok d) (hb : d.body = some out)
    (p : List Nat) (anc : List PLab) (e : PLab) (kids : List (Node PLab)) (hp : pick doc p = some (anc, .elem e kids))
    (hek : e.att.kind = .p ∨ e.att.kind = .span) :
    ∃ anc' a kids' f, pick out p = some (anc', .elem a kids') ∧ felOf e = some f ∧
      (f.fs.v ≠ 0 → (dGives d (·.fs) a.style).isSome = true → dHeight f.fs.v (dGives d (·.lh) a.style) = f.height) := by
  obtain ⟨ds, hds, hreg, h3⟩ := convertDoc_ok h
  rcases h3 with ⟨_, _, h5⟩ | ⟨h4, out', sh, h5, h6, hsty⟩
  · rw [h5] at hb; cases hb
  rw [h6] at hb
  cases hb
  obtain ⟨_, hkeyed, hsame⟩ := wconv_same h5 (by intro k a ha; simp [Sheet.get] at ha)
  have hlh : LhOk L sh := wconv_lh h5 hag (by intro k a ha; simp [Sheet.get] at ha)
  obtain ⟨hri, c, hp'⟩ := presentDoc_ok hdoc
  have hforget : forget doc = .elem a0 kids0 := present_forget hp'
  obtain ⟨anc', a, kids', e1, e2, hfirst⟩ := doc_path hsame hforget hk hp
  have hreach : Reach doc anc (.elem e kids) := pick_reach hp
  have hr : ∀ n ∈ e.att.style, ∃ q ∈ hd.sheet, q.1 = n := refs_known (doc_refs hdoc hs hreach).1
  rcases List.eq_nil_or_concat anc with hanc | ⟨l, q, hanc⟩
  · exfalso
    subst hanc
    have h0 : e.att = a0 := by
      cases p with
      | nil =>
        rw [pick] at hp
        cases hp
        rw [forget] at hforget
        injection hforget
      | cons i p =>
        cases doc with
        | text s => cases hp
        | br => cases hp
        | elem y ys =>
          rw [pick] at hp
          cases hy : ys[i]? with
          | none => rw [hy] at hp; cases hp
          | some w =>
            rw [hy] at hp
            simp only at hp
            cases hw : pick w p with
            | none => rw [hw] at hp; cases hp
            | some r => rw [hw] at hp; cases hp
    rw [h0, hk] at hek
    rcases hek with hek | hek <;> cases hek
  · rw [List.concat_eq_append] at hanc
    subst hanc
    have hstep := path_last e2
    have hkid := agree_pick hag hp
    obtain ⟨a1, o, g1, g2, g3, _⟩ := hstep
    have hst : ∀ n ∈ a1.style, ∃ q ∈ hd.sheet, q.1 = n := by
      obtain ⟨_, _, k3, k4⟩ := convAtt_kind g1
      by_cases hkb : e.att.kind = .body
      · rw [k4 hkb]; intro n hn; cases hn
      · rw [(k3 hkb).2]; exact hr
    have look : ∀ {α : Type} (fn : Specified → Option α) (_ : ∀ s, fn (convSpec s) = none),
        dGives d fn a.style = o.bind (fun k => (sh.get k).bind (fun x => fn (autoDStyle (fontId pr) x).own)) := by
      intro α fn hfn
      rw [g2]
      show dGives d fn ((o.map (fontId pr)).toList ++ a1.style) = _
      rw [dGives_append, dGives_source hsty fn hst, firstOf_eq_none (a1.style.map _) (by
        intro o ho
        obtain ⟨n, _, hn⟩ := List.mem_map.1 ho
        rw [← hn]; exact hfn _), Option.or_none]
      cases o with
      | none => rfl
      | some k =>
        simp only [Option.map_some, Option.toList_some, dGives, List.map_cons, List.map_nil, dFind_auto hsty hc hpr k, Option.bind_some]
        cases sh.get k with
        | none => rfl
        | some x => simp only [Option.map_some, Option.bind_some]; cases fn (autoDStyle (fontId pr) x).own <;> rfl
    have hl := look (fun s => s.lh) (fun _ => rfl)
    have hf := look (fun s => s.fs) (fun _ => rfl)
    have fin : ∀ (around : Rat) (f : FEl), felOf e = some f → Sized sh around f.fs.v o → Agree L around f → f.fs.v ≠ 0 →
        (dGives d (·.fs) a.style).isSome = true → dHeight f.fs.v (dGives d (·.lh) a.style) = f.height := by
      intro around f _ hsz hagr hv hsome
      rw [hf] at hsome
      rw [hl]
      cases o with
      | none => cases hsome
      | some k =>
        obtain ⟨_, hkk, _⟩ := hsz
        simp only [Option.bind_some] at hsome ⊢
        cases hx : sh.get k with
        | none => rw [hx] at hsome; cases hsome
        | some x =>
          simp only [Option.bind_some, autoDStyle]
          rw [hlh k x hx]
          unfold Agree at hagr
          rw [← hkk] at hagr
          rw [← hagr]
          cases f.height with
          | none => rfl
          | some l =>
            simp only [Option.map_some, dHeight, Option.some.injEq]
            grind
    rcases hek with hek | hek
    · simp only [FontOk, hek] at g3
      obtain ⟨f, k1, k2⟩ := g3
      exact ⟨anc', a, kids', f, e1, k1, fin 1 f k1 k2 ((hkid f k1).1 hek)⟩
    · simp only [FontOk, hek] at g3
      obtain ⟨q', f, g, k0, k1, k2, k3⟩ := g3
      cases k0
      exact ⟨anc', a, kids', f, e1, k1, fin _ f k1 k3 ((hkid f k1).2 hek g k2)⟩

/-! ### Non-vacuity -/

def agreeKidB (L : Rat → Option Rat) (parent : PLab) : Node PLab → Bool
  | .elem x _ =>
    match felOf x with
    | none => true
    | some f =>
      (decide (x.att.kind ≠ .p) || decide (f.height.map (fun l => l / f.fs.v * 100) = L (f.fs.v / 1 * 100))) &&
      (decide (x.att.kind ≠ .span) || (felOf parent).all (fun g => decide (f.height.map (fun l => l / f.fs.v * 100) = L (f.fs.v / g.fs.v * 100))))
  | _ => true

mutual
def agreeInB (L : Rat → Option Rat) : Node PLab → Bool
  | .elem x kids => agreeInLB L x kids
  | _ => true
def agreeInLB (L : Rat → Option Rat) (parent : PLab) : List (Node PLab) → Bool
  | [] => true
  | k :: ks => agreeKidB L parent k && agreeInB L k && agreeInLB L parent ks
end

theorem agreeKid_of {L : Rat → Option Rat} {parent : PLab} {k : Node PLab} (h : agreeKidB L parent k = true) : AgreeKid L parent k := by
  cases k with
  | text s => trivial
  | br => trivial
  | elem x ks =>
    intro f hf
    simp only [agreeKidB, hf, Bool.and_eq_true, Bool.or_eq_true, decide_eq_true_eq] at h
    refine ⟨fun hp => ?_, fun hsp g hg => ?_⟩
    · rcases h.1 with h1 | h1
      · exact absurd hp h1
      · exact h1
    · rcases h.2 with h1 | h1
      · exact absurd hsp h1
      · rw [hg] at h1
        simpa [Agree] using h1

mutual
theorem agreeIn_of {L : Rat → Option Rat} : ∀ {n : Node PLab}, agreeInB L n = true → AgreeIn L n
  | .text _, _ => by rw [AgreeIn]; · trivial
                     · intro _ _ h; cases h
  | .br, _ => by rw [AgreeIn]; · trivial
                 · intro _ _ h; cases h
  | .elem x kids, h => by rw [agreeInB] at h; rw [AgreeIn]; exact agreeInL_of h
theorem agreeInL_of {L : Rat → Option Rat} {parent : PLab} : ∀ {ks : List (Node PLab)}, agreeInLB L parent ks = true → AgreeInL L parent ks
  | [], _ => by rw [AgreeInL]; trivial
  | k :: ks, h => by
    rw [agreeInLB, Bool.and_eq_true, Bool.and_eq_true] at h
    rw [AgreeInL]
    exact ⟨agreeKid_of h.1.1, agreeIn_of h.1.2, agreeInL_of h.2⟩
end

/-- The styles of the examples of C73 with line heights: 125 percent, and for the red span three quarters of a cell. -/
def exLhLook : Head := { exLook with own := fun n => { exLook.own n with lh := if n = "big".toList then some (.pct 125) else some (.cell (3/4)) } }

/-- The example meets the hypotheses of `C74_line_heights_partial` (the others are shown in `Verif.Convert.WholeCases`). -/
example : ∃ infos doc, presentDoc exLhLook exLooked = .ok (infos, doc) ∧
    AgreeIn (fun k => if k = 200 then some 125 else if k = 50 then some 75 else if k = 100 then some 125 else none) doc := by
  cases h : presentDoc exLhLook exLooked with
  | error e =>
    have : (presentDoc exLhLook exLooked).toOption.isSome = true := by decide +kernel
    rw [h] at this; cases this
  | ok r =>
    have : (presentDoc exLhLook exLooked).toOption.all (fun r => agreeInB (fun k => if k = 200 then some 125 else if k = 50 then some 75 else if k = 100 then some 125 else none) r.2) = true := by
      decide +kernel
    rw [h] at this
    exact ⟨r.1, r.2, rfl, agreeIn_of this⟩

set_option synthInstance.maxSize 1000 in
/-- The converted example: the p is two cells high with lines of two and a half, the first span one cell with lines of three quarters. -/
example : (wholeOf exLhLook (40, 20) exPlace exLooked).map (fun d => [[0, 0], [0, 0, 0], [0, 0, 1]].map (fun p =>
      (d.body.bind (fun out => pick out p)).bind (fun r => match r.2 with
        | .elem a _ => some ((dSize d (r.1 ++ [a])).2, dHeight (dSize d (r.1 ++ [a])).2 (dGives d (·.lh) a.style))
        | _ => none))) =
    some [some (2, some (5/2)), some (1, some (3/4)), some (2, none)] := by decide +kernel

/-! ### Where it fails -/

/-- A document of one div with p elements, each with one style and some text in a span. -/
def pList (ss : List Name) : Node Att := .elem { kind := .body } [.elem { kind := .div, region := some "r".toList }
  (ss.map (fun s => .elem { kind := .p, style := [s] } [.elem { kind := .span } [.text "x".toList]]))]

/-- The computed line height of the element at a position of the validated document. -/
def heightBefore (hd : Head) (body : Node Att) (p : List Nat) : Option Rat :=
  match presentDoc hd body with
  | .error _ => none
  | .ok r => (pick r.2 p).bind (fun q => match q.2 with
    | .elem e _ => (felOf e).bind FEl.height
    | _ => none)

/-- The line height of the element at a position of the converted document. -/
def heightAfter (hd : Head) (body : Node Att) (p : List Nat) : Option Rat :=
  (wholeOf hd (40, 20) exPlace body).bind (fun d => (d.body.bind (fun out => pick out p)).bind (fun r => match r.2 with
    | .elem a _ => dHeight (dSize d (r.1 ++ [a])).2 (dGives d (·.lh) a.style)
    | _ => none))

def lhHead (f g : LH) (v : Rat) : Head where
  sheet := [("a".toList, []), ("b".toList, [])]
  own := fun n => { fs := some (.cell ⟨none, v⟩), lh := some (if n = "a".toList then f else g) }
  regions := [⟨"r".toList, [], none⟩]
  geo := ⟨1, 1⟩

/-- Two paragraphs of the same size share a generated style, and the line height of the later one. -/
theorem C74_false_shared_line_height : ∃ hd body, Flat hd ∧ NoClash hd ∧
    heightBefore hd body [0, 0] = some (5/2) ∧ heightAfter hd body [0, 0] = some 3 :=
  ⟨lhHead (.pct 125) (.pct 150) 2, pList ["a".toList, "b".toList], by intro p hp; revert p; decide +kernel, by intro p hp; revert p; decide +kernel,
    by decide +kernel, by decide +kernel⟩

/-- The line height of a paragraph whose text is one cell high is lost: no style is generated for it. -/
theorem C74_false_default_line_height : ∃ hd body, Flat hd ∧ NoClash hd ∧
    heightBefore hd body [0, 0] = some (5/4) ∧ heightAfter hd body [0, 0] = none :=
  ⟨lhHead (.pct 125) (.pct 150) 1, pList ["a".toList], by intro p hp; revert p; decide +kernel, by intro p hp; revert p; decide +kernel,
    by decide +kernel, by decide +kernel⟩

end Verif.Convert
