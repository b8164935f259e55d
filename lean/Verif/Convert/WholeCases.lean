import Verif.Convert.WholeProps

/-! Regions and colours of converted documents, which documents are converted (C76), examples and where the claims fail. -/
namespace Verif.Convert

open Verif.Doc Verif.Style
open Verif.Size (Measure readOrigin readExtent)

/-! ### C76: regions -/

/-- Specification: a length along one side of the root container as a part of that side, for a side of `cells` cells and `px` pixels. -/
def part (cells px : Rat) : Measure → Rat → Rat
  | .cell, x => x / cells
  | .pct, x => x / 100
  | .px, x => x / px

theorem convPlace_part (res px : Rat × Rat) (s : Measure × Rat × Rat) :
    part res.1 px.1 (convPlace res s).1 (convPlace res s).2.1 = part res.1 px.1 s.1 s.2.1 ∧
    part res.2 px.2 (convPlace res s).1 (convPlace res s).2.2 = part res.2 px.2 s.1 s.2.2 := by
  obtain ⟨u, h, v⟩ := s
  cases u with
  | pct => exact ⟨rfl, rfl⟩
  | px => exact ⟨rfl, rfl⟩
  | cell =>
    simp only [convPlace, part]
    constructor <;> grind

/-- C76: regions keep their order, identifiers, styles and padding and cover the same part of the root container; nothing is in cells any
more.  A document without regions gets one that covers everything. -/
theorem C76_regions (m : Media) (pr : Rat → List Char) (hd : Head) (res : Rat × Rat) (place : Name → List Char × List Char) (doc : Node PLab)
    (d : DDoc) (h : convertDoc m pr hd res place doc = .ok d) :
    (hd.regions ≠ [] → List.Forall₂ (fun (r : RegionDef) (q : DRegion) => q.id = r.id ∧ q.refs = r.refs ∧ q.padding = r.padding ∧
      q.origin.1 ≠ .cell ∧ q.extent.1 ≠ .cell ∧
      ∃ o e, readOrigin (place r.id).1 = some o ∧ readExtent (place r.id).2 = some e ∧ ∀ px : Rat × Rat,
        part res.1 px.1 q.origin.1 q.origin.2.1 = part res.1 px.1 o.1 o.2.1 ∧ part res.2 px.2 q.origin.1 q.origin.2.2 = part res.2 px.2 o.1 o.2.2 ∧
        part res.1 px.1 q.extent.1 q.extent.2.1 = part res.1 px.1 e.1 e.2.1 ∧ part res.2 px.2 q.extent.1 q.extent.2.2 = part res.2 px.2 e.1 e.2.2)
      hd.regions d.regions) ∧
    (hd.regions = [] → ∃ q, d.regions = [q] ∧ q.refs = [] ∧ q.padding = none ∧ ∀ px : Rat × Rat,
      part res.1 px.1 q.origin.1 q.origin.2.1 = 0 ∧ part res.2 px.2 q.origin.1 q.origin.2.2 = 0 ∧
      part res.1 px.1 q.extent.1 q.extent.2.1 = 1 ∧ part res.2 px.2 q.extent.1 q.extent.2.2 = 1) := by
  obtain ⟨ds, h1, h2, _⟩ := convertDoc_ok h
  have hf := convRegions_forall h1
  constructor
  · intro hne
    have hds : d.regions = ds := by
      rw [h2]
      cases ds with
      | nil =>
        have := hf.length_eq
        exact absurd (List.length_eq_zero_iff.1 this) hne
      | cons _ _ => rfl
    rw [hds]
    refine hf.imp ?_
    intro r q hq
    obtain ⟨o, e, k1, k2, hq⟩ := convRegion_ok hq
    rw [hq]
    have hu : ∀ s : Measure × Rat × Rat, (convPlace res s).1 ≠ .cell := by
      intro s
      obtain ⟨u, h, v⟩ := s
      cases u <;> simp [convPlace]
    refine ⟨rfl, rfl, rfl, hu o, hu e, o, e, k1, k2, fun px => ?_⟩
    exact ⟨(convPlace_part res px o).1, (convPlace_part res px o).2, (convPlace_part res px e).1, (convPlace_part res px e).2⟩
  · intro he
    rw [he] at hf
    cases hf
    exact ⟨_, h2, rfl, rfl, fun px => by simp only [part]; decide +kernel⟩

/-! ### C76: colours -/

/-- The value of a hexadecimal digit. -/
def hexVal (c : Char) : Option Nat :=
  if '0' ≤ c ∧ c ≤ '9' then some (c.toNat - 48)
  else if 'a' ≤ c ∧ c ≤ 'f' then some (c.toNat - 87)
  else if 'A' ≤ c ∧ c ≤ 'F' then some (c.toNat - 55)
  else none

def byteVal (a b : Char) : Option Nat := (hexVal a).bind (fun x => (hexVal b).map (fun y => 16 * x + y))

/-- Specification: the red, green, blue and alpha that a colour stands for, with the names of TTML (section 8.3.10 of TTML1). -/
def meaning (v : Val) : Option (List Nat) :=
  match v with
  | ['#', r1, r2, g1, g2, b1, b2] =>
    (byteVal r1 r2).bind (fun r => (byteVal g1 g2).bind (fun g => (byteVal b1 b2).map (fun b => [r, g, b, 255])))
  | ['#', r1, r2, g1, g2, b1, b2, a1, a2] =>
    (byteVal r1 r2).bind (fun r => (byteVal g1 g2).bind (fun g => (byteVal b1 b2).bind (fun b => (byteVal a1 a2).map (fun a => [r, g, b, a]))))
  | _ => ([("transparent", [0, 0, 0, 0]), ("black", [0, 0, 0, 255]), ("silver", [192, 192, 192, 255]), ("gray", [128, 128, 128, 255]),
    ("white", [255, 255, 255, 255]), ("maroon", [128, 0, 0, 255]), ("red", [255, 0, 0, 255]), ("purple", [128, 0, 128, 255]),
    ("fuchsia", [255, 0, 255, 255]), ("magenta", [255, 0, 255, 255]), ("green", [0, 128, 0, 255]), ("lime", [0, 255, 0, 255]),
    ("olive", [128, 128, 0, 255]), ("yellow", [255, 255, 0, 255]), ("navy", [0, 0, 128, 255]), ("blue", [0, 0, 255, 255]),
    ("teal", [0, 128, 128, 255]), ("aqua", [0, 255, 255, 255]), ("cyan", [0, 255, 255, 255])].map
      (fun p : String × List Nat => (p.1.toList, p.2))).lookup v

theorem lookup_mem {α β : Type} [BEq α] [LawfulBEq α] {l : List (α × β)} {k : α} {v : β} (h : l.lookup k = some v) : (k, v) ∈ l := by
  induction l with
  | nil => cases h
  | cons p l ih =>
    obtain ⟨a, b⟩ := p
    rw [List.lookup_cons] at h
    by_cases hk : k == a
    · rw [hk] at h
      cases h
      rw [eq_of_beq hk]
      exact List.mem_cons_self
    · simp only [Bool.not_eq_true] at hk
      rw [hk] at h
      exact List.mem_cons_of_mem _ (ih h)

/-- C76: a colour means the same after conversion, and if it means anything it is written in numbers. -/
theorem C76_colours (v : Val) : meaning (rgba v) = meaning v ∧ ((meaning v).isSome = true → (rgba v).head? = some '#') := by
  rw [rgba]
  cases h : colorMap.lookup v with
  | some w =>
    have hm := lookup_mem h
    have hall : ∀ p ∈ colorMap, meaning p.2 = meaning p.1 ∧ p.2.head? = some '#' := by decide +kernel
    exact ⟨(hall _ hm).1, fun _ => (hall _ hm).2⟩
  | none =>
    refine ⟨rfl, fun hs => ?_⟩
    show v.head? = some '#'
    unfold meaning at hs
    split at hs
    · rfl
    · rfl
    · exfalso
      rename_i hn1 hn2
      obtain ⟨w, hw⟩ := Option.isSome_iff_exists.1 hs
      have hm := lookup_mem hw
      have hall : ∀ p ∈ ([("transparent", [0, 0, 0, 0]), ("black", [0, 0, 0, 255]), ("silver", [192, 192, 192, 255]), ("gray", [128, 128, 128, 255]),
          ("white", [255, 255, 255, 255]), ("maroon", [128, 0, 0, 255]), ("red", [255, 0, 0, 255]), ("purple", [128, 0, 128, 255]),
          ("fuchsia", [255, 0, 255, 255]), ("magenta", [255, 0, 255, 255]), ("green", [0, 128, 0, 255]), ("lime", [0, 255, 0, 255]),
          ("olive", [128, 128, 0, 255]), ("yellow", [255, 255, 0, 255]), ("navy", [0, 0, 128, 255]), ("blue", [0, 0, 255, 255]),
          ("teal", [0, 128, 128, 255]), ("aqua", [0, 255, 255, 255]), ("cyan", [0, 255, 255, 255])].map
            (fun p : String × List Nat => (p.1.toList, p.2))), (colorMap.lookup p.1).isSome = true := by decide +kernel
      have hx : (colorMap.lookup v).isSome = true := hall _ hm
      rw [h] at hx
      cases hx

/-! ### C76: which documents are converted -/

/-- The font size of a p or span is there and no part of it is zero. -/
def Visible (x : PLab) : Prop :=
  x.att.kind = .p ∨ x.att.kind = .span → ∃ z, x.comp.fs = some (.cell z) ∧ z.v ≠ 0 ∧ z.h ≠ some 0

theorem fixFont_some {ref : Dim} {x : FEl} (h1 : ref.v ≠ 0) (h2 : ref.h ≠ some 0) (h3 : x.fs.v ≠ 0) (sh : Convert.Sheet) :
    ∃ r, fixFont ref x sh = some r := by
  unfold fixFont
  split
  · exact ⟨_, rfl⟩
  · rw [divDim, if_neg h1, if_neg h2]
    simp only
    split
    · try rw [if_neg h3]
      exact ⟨_, rfl⟩
    · exact ⟨_, rfl⟩

theorem fixNode_ok (nm : Rat → Name) {parent : PLab} {k : Node PLab} (hp : parent.att.kind = .p → Visible parent)
    (hk : ∀ x ks, k = .elem x ks → Visible x) (hfit : ∀ x ks, k = .elem x ks → x.att.kind = .span → parent.att.kind = .p)
    (k' : Node Att) (sh : Convert.Sheet) : ∃ r, fixNode nm parent k k' sh = .ok r := by
  cases k with
  | text s => exact ⟨_, rfl⟩
  | br => exact ⟨_, rfl⟩
  | elem x ks =>
    have hv := hk x ks rfl
    cases hkd : x.att.kind with
    | body => simp only [fixNode, hkd]; exact ⟨_, rfl⟩
    | div => simp only [fixNode, hkd]; exact ⟨_, rfl⟩
    | p =>
      obtain ⟨z, z1, z2, z3⟩ := hv (.inl hkd)
      obtain ⟨r, hr⟩ := fixFont_some (ref := ⟨none, 1⟩) (x := ⟨z, x.comp.lh.1⟩) (by simp) (by simp) z2 sh
      have hfel : felOf x = some ⟨z, x.comp.lh.1⟩ := by rw [felOf, z1]
      simp only [fixNode, hkd, hfel, hr]
      exact ⟨_, rfl⟩
    | span =>
      obtain ⟨z, z1, z2, z3⟩ := hv (.inr hkd)
      have hpk := hfit x ks rfl hkd
      obtain ⟨y, y1, y2, y3⟩ := hp hpk (.inl hpk)
      obtain ⟨r, hr⟩ := fixFont_some (ref := y) (x := ⟨z, x.comp.lh.1⟩) y2 y3 z2 sh
      have hfel : felOf x = some ⟨z, x.comp.lh.1⟩ := by rw [felOf, z1]
      have hfelp : felOf parent = some ⟨y, parent.comp.lh.1⟩ := by rw [felOf, y1]
      simp only [fixNode, hkd, hfel, hfelp, hr]
      exact ⟨_, rfl⟩

theorem fitsD_addRef (kd : Kind) (nm : Rat → Name) (o : Option Rat) (n : Node Att) : fitsD kd (addRef nm o n) = fitsD kd n := by
  cases n <;> rfl

theorem fixNode_addRef {nm : Rat → Name} {parent : PLab} {k : Node PLab} {k' : Node Att} {sh : Convert.Sheet} {r : Node Att × Convert.Sheet}
    (h : fixNode nm parent k k' sh = .ok r) : ∃ o, r.1 = addRef nm o k' := by
  have hnone : addRef nm none k' = k' := by cases k' <;> rfl
  unfold fixNode at h
  repeat' split at h
  all_goals first
    | cases h; done
    | (cases h; exact ⟨_, rfl⟩)
    | (cases h; exact ⟨none, hnone.symm⟩)

mutual
theorem wconv_total (m : Media) (nm : Rat → Name) : ∀ (n : Node PLab) (anc : List PLab) (c : Node Att) (sh : Convert.Sheet), conv m (forget n) = .ok c →
    Every (fun _ x => Visible x) anc n → ∃ n' sh', wconv m nm n sh = .ok (n', sh') ∧ ∀ kd, fitsD kd n' = fitsD kd c
  | .text s, anc, c, sh, h, _ => by rw [forget, conv] at h; cases h; exact ⟨_, _, rfl, fun _ => rfl⟩
  | .br, anc, c, sh, h, _ => by rw [forget, conv] at h; cases h; exact ⟨_, _, rfl, fun _ => rfl⟩
  | .elem x kids, anc, c, sh, h, he => by
    rw [Every] at he
    rw [forget, conv] at h
    simp only [bind, Except.bind] at h
    cases h1 : convL m (forgetL kids) with
    | error e => rw [h1] at h; cases h
    | ok cs =>
      rw [h1] at h
      simp only at h
      cases h2 : convAtt m x.att with
      | error e => rw [h2] at h; cases h
      | ok a =>
        rw [h2] at h
        simp only at h
        split at h
        · rename_i hall
          cases h
          obtain ⟨ks', sh', k1, k2⟩ := wconvL_total m nm x he.1 kids (anc ++ [x]) cs sh h1 he.2 hall
          refine ⟨.elem a ks', sh', ?_, fun kd => rfl⟩
          rw [wconv]
          simp only [k1, h2]
          rw [if_pos k2]
        · cases h
theorem wconvL_total (m : Media) (nm : Rat → Name) (parent : PLab) (hv : Visible parent) : ∀ (ks : List (Node PLab)) (anc : List PLab) (cs : List (Node Att))
    (sh : Convert.Sheet), convL m (forgetL ks) = .ok cs → EveryL (fun _ x => Visible x) anc ks → cs.all (fitsD parent.att.kind) = true →
    ∃ ks' sh', wconvL m nm parent ks sh = .ok (ks', sh') ∧ ks'.all (fitsD parent.att.kind) = true
  | [], anc, cs, sh, h, _, _ => ⟨[], sh, rfl, rfl⟩
  | k :: ks, anc, cs, sh, h, he, hall => by
    rw [EveryL] at he
    rw [forgetL, convL] at h
    simp only [bind, Except.bind] at h
    cases h1 : conv m (forget k) with
    | error e => rw [h1] at h; cases h
    | ok c =>
      rw [h1] at h
      simp only at h
      cases h2 : convL m (forgetL ks) with
      | error e => rw [h2] at h; cases h
      | ok cs' =>
        rw [h2] at h
        cases h
        rw [List.all_cons, Bool.and_eq_true] at hall
        obtain ⟨k', sh1, g1, g2⟩ := wconv_total m nm k anc c sh h1 he.1
        have hself : ∀ x l, k = .elem x l → Visible x := by
          intro x l hx
          have h := he.1
          rw [hx, Every] at h
          exact h.1
        have hfit : ∀ x l, k = .elem x l → x.att.kind = .span → parent.att.kind = .p := by
          intro x l hx hxs
          obtain ⟨c1, c2⟩ := hall
          rw [hx, forget] at h1
          have hkc : ∃ b l', c = .elem b l' ∧ b.kind = .span := by
            rw [conv] at h1
            simp only [bind, Except.bind] at h1
            cases q1 : convL m (forgetL l) with
            | error e => rw [q1] at h1; cases h1
            | ok l' =>
              rw [q1] at h1
              simp only at h1
              cases q2 : convAtt m x.att with
              | error e => rw [q2] at h1; cases h1
              | ok b =>
                rw [q2] at h1
                simp only at h1
                split at h1
                · cases h1
                  exact ⟨b, l', rfl, by rw [(convAtt_kind q2).1, hxs]⟩
                · cases h1
          obtain ⟨b, l', e1, e2⟩ := hkc
          rw [e1] at c1
          simp only [fitsD, e2] at c1
          cases hq : parent.att.kind <;> rw [hq] at c1 <;> first | rfl | exact absurd c1 (by decide)
        obtain ⟨r, hr⟩ := fixNode_ok nm (fun _ => hv) hself hfit k' sh1
        obtain ⟨o, ho⟩ := fixNode_addRef hr
        obtain ⟨ks', sh2, g3, g4⟩ := wconvL_total m nm parent hv ks anc cs' r.2 h2 he.2 hall.2
        refine ⟨r.1 :: ks', sh2, ?_, ?_⟩
        · rw [wconvL]
          simp only [g1, hr, g3]
        · rw [List.all_cons, Bool.and_eq_true]
          refine ⟨?_, g4⟩
          rw [ho, fitsD_addRef, g2]
          exact hall.1
end

theorem reach_child {α : Type} {x : α} {kids : List (Node α)} {k n : Node α} {anc : List α} (hk : k ∈ kids) (h : Reach k anc n) :
    Reach (.elem x kids) (x :: anc) n := by
  induction h with
  | here => exact .step .here hk
  | step _ hm ih => exact .step ih hm

mutual
theorem reach_every {P : List PLab → PLab → Prop} : ∀ (n : Node PLab) (anc : List PLab),
    (∀ anc' x kids, Reach n anc' (.elem x kids) → P (anc ++ anc') x) → Every P anc n
  | .text _, _, _ => by rw [Every]; trivial
  | .br, _, _ => by rw [Every]; trivial
  | .elem x kids, anc, h => by
    rw [Every]
    constructor
    · have := h [] x kids .here
      rwa [List.append_nil] at this
    · apply reachL_every kids (anc ++ [x])
      intro k hk anc' y l hr
      have := h (x :: anc') y l (reach_child hk hr)
      rwa [List.append_assoc, List.singleton_append]
theorem reachL_every {P : List PLab → PLab → Prop} : ∀ (ks : List (Node PLab)) (anc : List PLab),
    (∀ k ∈ ks, ∀ anc' x kids, Reach k anc' (.elem x kids) → P (anc ++ anc') x) → EveryL P anc ks
  | [], _, _ => by rw [EveryL]; trivial
  | k :: ks, anc, h => by
    rw [EveryL]
    exact ⟨reach_every k anc (h k (by simp)), reachL_every ks anc (fun q hq => h q (List.mem_cons_of_mem _ hq))⟩
end

/-- C76: every validated document whose content can be converted (see `C43_converts_iff`) and whose regions have readable sizes is converted,
unless a p or span has a font size of zero. -/
theorem C76_converts (m : Media) (pr : Rat → List Char) (hd : Head) (res : Rat × Rat) (place : Name → List Char × List Char)
    (body : Node Att) (infos : List RInfo) (doc : Node PLab) (hdoc : presentDoc hd body = .ok (infos, doc))
    (o : Option (Node Att)) (hc : convertBody m body = .ok o)
    (hr : ∀ r ∈ hd.regions, (readOrigin (place r.id).1).isSome = true ∧ (readExtent (place r.id).2).isSome = true)
    (hz : ∀ anc e kids, Reach doc anc (.elem e kids) → e.att.kind = .p ∨ e.att.kind = .span →
      ∀ z, e.comp.fs = some (.cell z) → z.v ≠ 0 ∧ z.h ≠ some 0) :
    ∃ d, convertDoc m pr hd res place doc = .ok d := by
  obtain ⟨_, c, hp⟩ := presentDoc_ok hdoc
  have hforget := present_forget hp
  have hreg : ∀ rs : List RegionDef, (∀ r ∈ rs, (readOrigin (place r.id).1).isSome = true ∧ (readExtent (place r.id).2).isSome = true) →
      ∃ ds, convRegions res place rs = .ok ds := by
    intro rs
    induction rs with
    | nil => intro _; exact ⟨_, rfl⟩
    | cons r rs ih =>
      intro h
      obtain ⟨ds, hds⟩ := ih (fun q hq => h q (List.mem_cons_of_mem _ hq))
      obtain ⟨h1, h2⟩ := h r (by simp)
      obtain ⟨o, ho⟩ := Option.isSome_iff_exists.1 h1
      obtain ⟨e, he⟩ := Option.isSome_iff_exists.1 h2
      rw [convRegions, convRegion, ho, he]
      simp only [hds]
      exact ⟨_, rfl⟩
  obtain ⟨ds, hds⟩ := hreg hd.regions hr
  rw [convertDoc, hds, hforget]
  simp only
  split
  · rename_i hdv
    rw [convertBody, if_pos hdv] at hc
    cases hcv : conv m body with
    | error e => rw [hcv] at hc; cases hc
    | ok c' =>
      have hev : Every (fun _ x => Visible x) [] doc := by
        apply reach_every
        intro anc e kids hre hk
        obtain ⟨z, hz'⟩ := C31_document_cells hd body infos doc hdoc anc e kids hre hk
        exact ⟨z, hz', hz anc e kids hre hk z hz'⟩
      obtain ⟨n', sh', hw, _⟩ := wconv_total m (fontId pr) doc [] c' [] (by rw [hforget]; exact hcv) hev
      rw [hw]
      exact ⟨_, rfl⟩
  · exact ⟨_, rfl⟩

/-! ### Examples -/

/-- A way of printing percentages. -/
def exPr (q : Rat) : List Char := (if q.num < 0 then ['-'] else []) ++ List.replicate q.num.natAbs '1' ++ '/' :: List.replicate q.den '1'

theorem exPr_injective : Function.Injective exPr := by
  have gen : ∀ (a b : Nat) (x y : List Char), List.replicate a '1' ++ '/' :: x = List.replicate b '1' ++ '/' :: y → a = b ∧ x = y := by
    intro a
    induction a with
    | zero =>
      intro b x y h
      cases b with
      | zero => simpa using h
      | succ b => simp [List.replicate_succ] at h
    | succ a ih =>
      intro b x y h
      cases b with
      | zero => simp [List.replicate_succ] at h
      | succ b =>
        simp only [List.replicate_succ, List.cons_append, List.cons.injEq, true_and] at h
        obtain ⟨h1, h2⟩ := ih b x y h
        exact ⟨by rw [h1], h2⟩
  have hne : ∀ (a : Nat) (x y : List Char), List.replicate a '1' ++ '/' :: x ≠ '-' :: y := by
    intro a x y
    cases a <;> simp [List.replicate_succ]
  intro p q h
  have key : p.num = q.num ∧ p.den = q.den := by
    unfold exPr at h
    by_cases hp : p.num < 0 <;> by_cases hq : q.num < 0
    · rw [if_pos hp, if_pos hq] at h
      simp only [List.cons_append, List.cons.injEq, true_and] at h
      obtain ⟨h1, h2⟩ := gen _ _ _ _ h
      exact ⟨by omega, by simpa using congrArg List.length h2⟩
    · rw [if_pos hp, if_neg hq] at h
      exact absurd h.symm (hne _ _ _)
    · rw [if_neg hp, if_pos hq] at h
      exact absurd h (hne _ _ _)
    · rw [if_neg hp, if_neg hq] at h
      obtain ⟨h1, h2⟩ := gen _ _ _ _ h
      exact ⟨by omega, by simpa using congrArg List.length h2⟩
  exact Rat.ext key.1 key.2

/-- Validation and conversion of a document with media times. -/
def wholeOf (hd : Head) (res : Rat × Rat) (place : Name → List Char × List Char) (body : Node Att) : Option DDoc :=
  match presentDoc hd body with
  | .error _ => none
  | .ok r => (convertDoc { base := .media, zero := 0, rd := Time.exactReader } exPr hd res place r.2).toOption

def exPlace : Name → List Char × List Char := fun _ => ("4c 10c".toList, "32c 5c".toList)

/-- Two styles, and a region in cells that refers to one of them. -/
def exLook : Head where
  sheet := [("big".toList, []), ("red".toList, [])]
  own := fun n => if n = "big".toList then { fs := some (.cell ⟨none, 2⟩), inh := fun x => if x = .textAlign then some "center".toList else none }
    else { inh := fun x => if x = .color then some "red".toList else none, simple := fun x => if x = .backgroundColor then some "blue".toList else none,
           fs := some (.pct ⟨none, 50⟩) }
  regions := [⟨"r".toList, ["big".toList], none⟩]
  geo := ⟨1, 1⟩

def exLooked : Node Att := .elem { kind := .body } [.elem { kind := .div, region := some "r".toList } [
  .elem { kind := .p, id := some "p".toList } [.elem { kind := .span, style := ["red".toList] } [.text "x".toList], .elem { kind := .span } [.text "y".toList]]]]

/-- What is known of an element of a converted document. -/
def lookAt (d : DDoc) (p : List Nat) : Option (Option Val × Option Val × Option Val × Rat) :=
  (d.body.bind (fun out => pick out p)).bind (fun r => match r.2 with
    | .elem a _ => some (dValue d (r.1 ++ [a]) .color, dValue d (r.1 ++ [a]) .textAlign, dGives d (·.simple .backgroundColor) a.style, (dSize d (r.1 ++ [a])).2)
    | _ => none)

/-- The document of the examples meets the hypotheses of C73, C74 and C75. -/
example : exLooked = .elem { kind := .body } [.elem { kind := .div, region := some "r".toList } [
      .elem { kind := .p, id := some "p".toList } [.elem { kind := .span, style := ["red".toList] } [.text "x".toList], .elem { kind := .span } [.text "y".toList]]]] ∧
    shaped exLooked = true ∧ unnested exLooked = true ∧ (exLook.regions.map (·.id)).Nodup ∧ (exLook.sheet.map (·.1)).Nodup ∧
    (presentDoc exLook exLooked).toOption.isSome = true := ⟨rfl, by decide, by decide, by decide, by decide, by decide +kernel⟩

example : Flat exLook ∧ NoClash exLook := by
  constructor <;> (intro p hp; revert p; decide +kernel)

set_option synthInstance.maxSize 1000 in
/-- The converted example: body, div, p and two spans; the first span is red on blue, at half of the two cells of its region. -/
example : (wholeOf exLook (40, 20) exPlace exLooked).map (fun d => [[], [0], [0, 0], [0, 0, 0], [0, 0, 1]].map (lookAt d)) =
    some [some (none, some "start".toList, none, 1), some (none, some "center".toList, none, 1), some (none, some "center".toList, none, 2),
      some (some "#ff0000ff".toList, some "center".toList, some "#0000ffff".toList, 1), some (none, some "center".toList, none, 2)] := by decide +kernel

set_option synthInstance.maxSize 1000 in
example : (wholeOf exLook (40, 20) exPlace exLooked).map (fun d => d.regions.map (fun q => (q.id, q.refs, q.origin, q.extent))) =
    some [("r".toList, ["big".toList], (.pct, 10, 50), (.pct, 80, 25))] := by decide +kernel

example : (wholeOf { exLook with regions := [] } (40, 20) exPlace (.elem { kind := .body } [])).map (fun d => (d.regions.map (·.id), d.body.isNone)) =
    some (["region.default".toList], true) := by decide +kernel

example : meaning "silver".toList = some [192, 192, 192, 255] ∧ meaning (rgba "silver".toList) = some [192, 192, 192, 255] ∧
    rgba "#01020304".toList = "#01020304".toList := by decide +kernel

/-! ### Where it fails -/

/-- A span or p in a div in a body, with the given styles. -/
def oneP (ps : List Name) (ss : List Name) : Node Att := .elem { kind := .body } [.elem { kind := .div, region := some "r".toList } [
  .elem { kind := .p, style := ps } [.elem { kind := .span, style := ss } [.text "x".toList]]]]

/-- The value of an attribute, with initial values, of the element at a position of the validated document. -/
def before (hd : Head) (body : Node Att) (p : List Nat) (x : IAttr) : Option (Option Val) :=
  match presentDoc hd body with
  | .error _ => none
  | .ok r => (pick r.2 p).bind (fun q => match q.2 with
    | .elem e _ => some (e.comp.inh x).1
    | _ => none)

/-- The same of the converted document. -/
def after (hd : Head) (body : Node Att) (p : List Nat) (x : IAttr) : Option (Option Val) :=
  (wholeOf hd (40, 20) exPlace body).bind (fun d => (d.body.bind (fun out => pick out p)).bind (fun q => match q.2 with
    | .elem a _ => some (dValue d (q.1 ++ [a]) x)
    | _ => none))

/-- A style that refers to another one: EBU-TT-D styles have no references, so what it takes from the other is lost. -/
theorem C73_false_nested_styles : ∃ hd body, NoClash hd ∧ shaped body = true ∧ unnested body = true ∧
    before hd body [0, 0] .textAlign = some (some "center".toList) ∧ after hd body [0, 0] .textAlign = some (some "start".toList) :=
  ⟨{ sheet := [("a".toList, ["b".toList]), ("b".toList, [])],
     own := fun n => if n = "b".toList then { inh := fun x => if x = .textAlign then some "center".toList else none } else {},
     regions := [⟨"r".toList, [], none⟩], geo := ⟨1, 1⟩ }, oneP ["a".toList] [], by intro p hp; revert p; decide +kernel, by decide, by decide,
    by decide +kernel, by decide +kernel⟩

/-- The alignment of rows is not passed on. -/
theorem C73_false_multi_row_align : ∃ hd body, Flat hd ∧ NoClash hd ∧ shaped body = true ∧ unnested body = true ∧
    before hd body [0, 0] .multiRowAlign = some (some "end".toList) ∧ after hd body [0, 0] .multiRowAlign = some (some "auto".toList) :=
  ⟨{ sheet := [("a".toList, [])], own := fun _ => { inh := fun x => if x = .multiRowAlign then some "end".toList else none },
     regions := [⟨"r".toList, [], none⟩], geo := ⟨1, 1⟩ }, oneP ["a".toList] [], by intro p hp; revert p; decide +kernel,
    by intro p hp; revert p; decide +kernel, by decide, by decide, by decide +kernel, by decide +kernel⟩

/-- The styles of body are not passed on. -/
theorem C73_false_body_style : ∃ hd a0 kids0, a0.kind = .body ∧ Flat hd ∧ NoClash hd ∧ shaped (.elem a0 kids0) = true ∧ unnested (.elem a0 kids0) = true ∧
    before hd (.elem a0 kids0) [0, 0] .color = some (some "red".toList) ∧ after hd (.elem a0 kids0) [0, 0] .color = some none :=
  ⟨exLook, { kind := .body, style := ["red".toList] }, [.elem { kind := .div } [.elem { kind := .p } []]], rfl,
    by intro p hp; revert p; decide +kernel, by intro p hp; revert p; decide +kernel, by decide, by decide, by decide +kernel, by decide +kernel⟩

/-- The padding a region has from a style is lost: EBU-TT-D styles have no padding. -/
theorem C73_false_padding : ∃ hd, Flat hd ∧ NoClash hd ∧
    ((presentRegions hd hd.regions).toOption.map (fun l => l.map (fun i => i.comp.simple .padding)) = some ["1c".toList]) ∧
    (wholeOf hd (40, 20) exPlace (oneP [] [])).map (fun d => d.regions.map (fun q => (q.padding, dGives d (·.simple .padding) q.refs))) =
      some [(none, none)] :=
  ⟨{ sheet := [("a".toList, [])], own := fun _ => { simple := fun x => if x = .padding then some "1c".toList else none },
     regions := [⟨"r".toList, ["a".toList], none⟩], geo := ⟨1, 1⟩ }, by intro p hp; revert p; decide +kernel,
    by intro p hp; revert p; decide +kernel, by decide +kernel, by decide +kernel⟩

/-- A font that is half as wide as high: only the height is kept. -/
theorem C74_false_width : ∃ hd body, Flat hd ∧ NoClash hd ∧ shaped body = true ∧
    (presentDoc hd body).toOption.map (fun r => ((pick r.2 [0, 0, 0]).bind (fun q => match q.2 with
      | .elem e _ => e.comp.fs
      | _ => none))) = some (some (.cell ⟨some (1/2), 1⟩)) ∧
    (wholeOf hd (40, 20) exPlace body).bind (fun d => (d.body.bind (fun out => pick out [0, 0, 0])).bind (fun q => match q.2 with
      | .elem a _ => some (dSize d (q.1 ++ [a]))
      | _ => none)) = some (1, 1) :=
  ⟨{ sheet := [("a".toList, [])], own := fun _ => { fs := some (.pct ⟨some 50, 100⟩) }, regions := [⟨"r".toList, [], none⟩], geo := ⟨1, 1⟩ },
    oneP [] ["a".toList], by intro p hp; revert p; decide +kernel, by intro p hp; revert p; decide +kernel, by decide, by decide +kernel,
    by decide +kernel⟩

/-- A style of the document that is named like a generated one: two styles with one identifier, and the p is not two cells high any more. -/
theorem C75_false_clash : ∃ hd body, Flat hd ∧ shaped body = true ∧ (hd.sheet.map (·.1)).Nodup ∧
    (presentDoc hd body).toOption.map (fun r => ((pick r.2 [0, 0]).bind (fun q => match q.2 with
      | .elem e _ => e.comp.fs
      | _ => none))) = some (some (.cell ⟨none, 2⟩)) ∧
    (wholeOf hd (40, 20) exPlace body).map (fun d => decide (d.styles.map (·.id)).Nodup) = some false ∧
    (wholeOf hd (40, 20) exPlace body).bind (fun d => (lookAt d [0, 0]).map (fun x => x.2.2.2)) = some 1 :=
  ⟨{ sheet := [("big".toList, []), (fontId exPr 200, [])],
     own := fun n => if n = "big".toList then { fs := some (.cell ⟨none, 2⟩) } else {}, regions := [⟨"r".toList, [], none⟩], geo := ⟨1, 1⟩ },
    oneP ["big".toList] [], by intro p hp; revert p; decide +kernel, by decide, by decide +kernel, by decide +kernel, by decide +kernel, by decide +kernel⟩

/-- A region in pixels stays in pixels; EBU-TT-D has no size of the root container to relate them to. -/
theorem C76_false_pixels : ∃ place, (wholeOf exLook (40, 20) place exLooked).map (fun d => d.regions.map (fun q => (q.origin.1, q.extent.1))) =
    some [(.px, .px)] :=
  ⟨fun _ => ("10px 20px".toList, "300px 40px".toList), by decide +kernel⟩

/-- A font of size zero stops the conversion. -/
theorem C76_false_zero : ∃ hd body infos doc, presentDoc hd body = .ok (infos, doc) ∧
    convertBody { base := .media, zero := 0, rd := Time.exactReader } body = .ok (some body) ∧ (wholeOf hd (40, 20) exPlace body).isNone = true :=
  ⟨{ sheet := [("a".toList, []), ("b".toList, [])], own := fun n => { fs := some (if n = "a".toList then .pct ⟨none, 0⟩ else .cell ⟨none, 1⟩) },
     regions := [⟨"r".toList, [], none⟩], geo := ⟨1, 1⟩ }, oneP ["a".toList] ["b".toList], _, _, rfl, rfl, by decide +kernel⟩

/-- A div without content is converted to a div without content, of which EBU-TT-D has none (ebutt_d.xsd:148-150). -/
theorem C76_false_empty_div : ∃ body, shaped body = true ∧
    (wholeOf exLook (40, 20) exPlace body).map (fun d => d.body.map (fun out => (pick out [0]).map (fun q => match q.2 with
      | .elem a kids => (a.kind, kids.length)
      | _ => (.body, 0)))) = some (some (some (.div, 0))) :=
  ⟨.elem { kind := .body } [.elem { kind := .div } []], by decide, by decide +kernel⟩

end Verif.Convert
