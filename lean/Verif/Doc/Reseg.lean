import Verif.Doc.SpliceProps
import Verif.Seq.Props

/-
Model of `EBUTT3DocumentSequence.extract_segment` (`/repo/ebu_tt_live/documents/ebutt3.py:956-1010`): the
windows of the affected documents, their segments, and the spliced result.
-/
namespace Verif.Doc

open Verif.Time (TimeBase Reader)

/-- What belongs to a held document besides the times the sequence looks at: its body, availability
time, time base, and for a window what the segmenter makes of its head — the identifiers of the copied
styles and regions, and for a referenced style or region the identifier of its copy. -/
structure Source where
  root : Node Att
  avail : Int
  base : TimeBase
  rd : Reader
  ref : Win → Name → Option Name
  styles : Win → Option (List Name)
  regions : Win → Option (List Name)

/-- The surroundings of the extraction of one document's segment with `deconflict_ids=True`
(ebutt3.py:983). -/
def Source.env (src : Source) (num : Nat) (w : Win) : Env :=
  { win := w, base := src.base, rd := src.rd, pre := some num, ref := src.ref w }

/-- `doc.extract_segment(begin, end, deconflict_ids=True)` in `try`/`except` (ebutt3.py:982-991): `none`
when it raises, the document is then left out. -/
def segmentOf (src : Source) (num : Nat) (w : Win) : Option SDoc :=
  match validateDoc src.avail src.root with
  | .error _ => none
  | .ok doc =>
    match segment (src.env num w) doc with
    | .error _ => none
    | .ok seg => some ⟨src.styles w, src.regions w, seg⟩

/-- `extract_segment(begin, end)` (ebutt3.py:956-1010).  Outer `none`: it raises; `some none`: no
segments, an empty compatible document is returned (ebutt3.py:995-997). -/
def extractSegment (s : Seq.State) (src : Seq.Doc → Source) (lo hi : Option Int) : Option (Option SDoc) :=
  (Seq.extractWindows s lo hi).map (fun ws =>
    splice (ws.filterMap (fun w => segmentOf (src w.1) w.1.num ⟨w.2.1, w.2.2⟩)))

/-- What a returned document shows at `t`: `create_from_raw_binding` validates it with no availability
time (ebutt3.py:1007). -/
def shownBy (out : Option SDoc) (t : Int) : List (List Item) :=
  match out with
  | none => []
  | some d =>
    match validateDoc 0 d.body with
    | .error _ => []
    | .ok doc => shownAt doc t

/-- What a held document shows at `t`. -/
def shownIn (src : Source) (t : Int) : List (List Item) :=
  match validateDoc src.avail src.root with
  | .error _ => []
  | .ok doc => shownAt doc t

/-- What the theorems assume of a held document: it has the structure the schema enforces, no badly timed
elements, times in whole milliseconds, a clock or media time base, its computed times are those the
sequence works with, and the segmenter copies all styles and regions that elements inside the window
refer to.  `hi` is a bound of the windows' ends, which a clock time base needs. -/
structure Source.Sound (src : Source) (d : Seq.Doc) (hi : Int) : Prop where
  rd : src.rd.Accurate
  avail : 0 ≤ src.avail
  availMs : src.avail % 1000 = 0
  sane : Sane src.root
  shaped : shaped src.root = true
  wellTimed : wellTimed src.root = true
  inMs : inMs src.root = true
  base : src.base = .media ∨ src.base = .clock ∧ hi < 100 * 3600000000
  refs : ∀ doc wb we, validateDoc src.avail src.root = .ok doc → (∀ b, wb = some b → b < we) →
    ∀ anc x kids, Reach doc anc (.elem x kids) →
    (∀ z ∈ anc ++ [x], Overlaps ⟨wb, some we⟩ z.comp = true) →
    (∀ s ∈ x.att.style, (src.ref ⟨wb, some we⟩ s).isSome = true) ∧
    ∀ r, hasRegion x.att.kind = true → x.att.region = some r → (src.ref ⟨wb, some we⟩ r).isSome = true
  times : ∃ x kids, validateDoc src.avail src.root = .ok (.elem x kids) ∧ d.cbegin = x.comp.b ∧ d.cend = x.comp.e

/-- In addition no element has both spans and text or line breaks of its own. -/
structure Source.Good (src : Source) (d : Seq.Doc) (hi : Int) : Prop extends Source.Sound src d hi where
  unmixed : unmixed src.root = true

/-! ### Computed times in whole milliseconds -/

/-- Whole milliseconds. -/
def WholeMs (c : Comp) : Prop := c.b % 1000 = 0 ∧ ∀ e, c.e = some e → e % 1000 = 0

theorem maxEnd_whole : ∀ {ks : List Comp}, (∀ k ∈ ks, WholeMs k) → ∀ e, maxEnd ks = some e → e % 1000 = 0
  | [], _, e, h => by simp [maxEnd] at h
  | [k], hk, e, h => (hk k (by simp)).2 e h
  | k :: k' :: ks, hk, e, h => by
    have ih := maxEnd_whole (ks := k' :: ks) (fun z hz => hk z (List.mem_cons_of_mem _ hz))
    have h0 := (hk k (by simp)).2
    rw [maxEnd] at h
    · cases hke : k.e with
      | none => rw [hke] at h; simp at h
      | some a =>
        rw [hke] at h
        cases hm : maxEnd (k' :: ks) with
        | none => rw [hm] at h; simp at h
        | some b =>
          rw [hm] at h
          simp at h
          have := h0 a hke
          have := ih b hm
          omega
    · simp

theorem minBegin_whole {k : Comp} : ∀ {ks : List Comp}, WholeMs k → (∀ z ∈ ks, WholeMs z) → minBegin k ks % 1000 = 0 := by
  intro ks hk hks
  have : ∀ (ks : List Comp) (m : Int), m % 1000 = 0 → (∀ z ∈ ks, WholeMs z) → ks.foldl (fun m x => min m x.b) m % 1000 = 0 := by
    intro ks
    induction ks with
    | nil => intro m hm _; exact hm
    | cons z zs ih =>
      intro m hm hz
      rw [List.foldl_cons]
      apply ih
      · have := (hz z (by simp)).1; omega
      · exact fun y hy => hz y (List.mem_cons_of_mem _ hy)
  exact this ks k.b hk.1 hks

theorem eff_whole {o : Option TV} (h : o.all (fun v => decide (v.delta % 1000 = 0)) = true) {t : Int} (ht : eff o = some t) :
    t % 1000 = 0 := by
  cases o with
  | none => simp [eff] at ht
  | some v =>
    simp only [eff] at ht
    split at ht
    · simp at ht
    · simp at ht h; omega

theorem ownEnd_whole {avail sync : Int} {bound : Option Int} {a : Att} (hav : avail % 1000 = 0) (hs : sync % 1000 = 0)
    (hb : ∀ e, bound = some e → e % 1000 = 0)
    (ha : [a.beg, a.fin, a.dur].all (fun o => o.all (fun v => decide (v.delta % 1000 = 0))) = true) :
    ∀ e, ownEnd avail sync bound a = some e → e % 1000 = 0 := by
  intro e he
  simp only [List.all_cons, List.all_nil, Bool.and_true, Bool.and_eq_true] at ha
  have h1 := fun t ht => eff_whole (t := t) ha.1 ht
  have h2 := fun t ht => eff_whole (t := t) ha.2.1 ht
  have h3 := fun t ht => eff_whole (t := t) ha.2.2 ht
  unfold ownEnd preEnd baseEnd at he
  cases hbo : bound <;> cases hbe : eff a.beg <;> cases hfe : eff a.fin <;> cases hde : eff a.dur <;> cases hk : a.kind <;>
    simp_all <;> omega

theorem compOf_whole {avail sync : Int} {bound : Option Int} {a : Att} {ks : List Comp} (hav : avail % 1000 = 0)
    (hs : sync % 1000 = 0) (hb : ∀ e, bound = some e → e % 1000 = 0)
    (ha : [a.beg, a.fin, a.dur].all (fun o => o.all (fun v => decide (v.delta % 1000 = 0))) = true)
    (hk : ∀ k ∈ ks, WholeMs k) : WholeMs (compOf avail sync bound a ks) := by
  have hsync : (sync + (eff a.beg).getD 0) % 1000 = 0 := by
    simp only [List.all_cons, Bool.and_eq_true] at ha
    cases hbe : eff a.beg with
    | none => simp; omega
    | some b => have := eff_whole ha.1 hbe; simp; omega
  have hpost : ∀ m : Int, m % 1000 = 0 → postBegin m ks % 1000 = 0 := by
    intro m hm
    unfold postBegin
    cases ks with
    | nil => exact hm
    | cons k ks =>
      simp only
      split
      · exact minBegin_whole (hk k (by simp)) (fun z hz => hk z (List.mem_cons_of_mem _ hz))
      · exact hm
  constructor
  · unfold compOf
    simp only
    by_cases hbody : a.kind = .body ∧ badly a = true
    · rw [if_pos hbody]
      split
      · exact hpost _ (by simp)
      · rfl
    · rw [if_neg hbody]
      have : (if avail ≠ 0 then max (sync + (eff a.beg).getD 0) avail else sync + (eff a.beg).getD 0) % 1000 = 0 := by
        split <;> omega
      split
      · exact hpost _ this
      · exact this
  · intro e he
    unfold compOf at he
    simp only at he
    by_cases hbody : a.kind = .body ∧ badly a = true
    · rw [if_pos hbody] at he
      simp at he
    · rw [if_neg hbody] at he
      simp only at he
      have ho := ownEnd_whole hav hs hb ha
      cases hoe : ownEnd avail sync bound a with
      | some e' => rw [hoe] at he; simp at he; exact he ▸ ho e' hoe
      | none =>
        rw [hoe] at he
        cases ks with
        | nil => simp at he; exact hb e he
        | cons k ks => exact maxEnd_whole hk e he

theorem timedKids_mem : ∀ {ns : List (Node Lab)} {c : Comp}, c ∈ timedKids ns → ∃ x kids, Node.elem x kids ∈ ns ∧ x.comp = c
  | .elem x kids :: ns, c, h => by
    rw [timedKids] at h
    by_cases hb : badly x.att = true
    · rw [if_pos hb] at h
      obtain ⟨y, ys, hy, he⟩ := timedKids_mem h
      exact ⟨y, ys, List.mem_cons_of_mem _ hy, he⟩
    · rw [if_neg hb, List.mem_cons] at h
      rcases h with h | h
      · exact ⟨x, kids, List.mem_cons_self, h.symm⟩
      · obtain ⟨y, ys, hy, he⟩ := timedKids_mem h
        exact ⟨y, ys, List.mem_cons_of_mem _ hy, he⟩
  | .text s :: ns, c, h => by
    obtain ⟨y, ys, hy, he⟩ := timedKids_mem (ns := ns) h
    exact ⟨y, ys, List.mem_cons_of_mem _ hy, he⟩
  | .br :: ns, c, h => by
    obtain ⟨y, ys, hy, he⟩ := timedKids_mem (ns := ns) h
    exact ⟨y, ys, List.mem_cons_of_mem _ hy, he⟩

mutual
theorem times_whole {avail : Int} (hav : avail % 1000 = 0) : ∀ (n : Node Att) (sync : Int) (bound : Option Int),
    sync % 1000 = 0 → (∀ e, bound = some e → e % 1000 = 0) → inMs n = true →
    ∀ x kids, times avail sync bound n = .elem x kids → WholeMs x.comp
  | .text s, _, _, _, _, _, x, kids, h => by simp [times] at h
  | .br, _, _, _, _, _, x, kids, h => by simp [times] at h
  | .elem a ks, sync, bound, hs, hb, hm, x, kids, h => by
    rw [times] at h
    injection h with h1 h2
    subst h1
    rw [inMs, Bool.and_eq_true] at hm
    refine compOf_whole hav hs hb hm.1 ?_
    intro c hc
    obtain ⟨y, ys, hy, rfl⟩ := timedKids_mem hc
    refine timesL_whole hav ks _ _ ?_ ?_ hm.2 y ys hy
    · have h1 := hm.1
      simp only [List.all_cons, Bool.and_eq_true] at h1
      cases hbe : eff a.beg with
      | none => simp; omega
      | some b => have := eff_whole h1.1 hbe; simp; omega
    · have ho := ownEnd_whole hav hs hb hm.1
      intro e he
      cases hoe : ownEnd avail sync bound a with
      | some e' => rw [hoe] at he; simp [below] at he; exact he ▸ ho e' hoe
      | none => rw [hoe] at he; exact hb e he
theorem timesL_whole {avail : Int} (hav : avail % 1000 = 0) : ∀ (ns : List (Node Att)) (sync : Int) (bound : Option Int),
    sync % 1000 = 0 → (∀ e, bound = some e → e % 1000 = 0) → inMsL ns = true →
    ∀ x kids, Node.elem x kids ∈ timesL avail sync bound ns → WholeMs x.comp
  | [], _, _, _, _, _, x, kids, h => by simp [timesL] at h
  | k :: ks, sync, bound, hs, hb, hm, x, kids, h => by
    rw [inMsL, Bool.and_eq_true] at hm
    rw [timesL, List.mem_cons] at h
    rcases h with h | h
    · exact times_whole hav k sync bound hs hb hm.1 x kids h.symm
    · exact timesL_whole hav ks sync bound hs hb hm.2 x kids h
end

end Verif.Doc
