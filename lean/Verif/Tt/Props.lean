import Verif.Tt.Model

/-!
# C70 to C72: the parameters of documents
-/
namespace Verif.Tt

open Verif.Size (Measure readExtent readOrigin readFont readLine readResolution Pair Length)
open Verif.Style (Dim Geometry toCells)

/-! ### C70: what is accepted -/

/-- The parameters that belong to the time base: those of smpte only there and complete, the clock mode exactly for clock
times. -/
def BaseParameters (t : Attrs) : Prop :=
  (t.timeBase = .smpte → t.frameRate.isSome ∧ t.dropMode.isSome ∧ t.markerMode.isSome) ∧
  (t.timeBase ≠ .smpte → t.dropMode = none ∧ t.markerMode = none) ∧
  (t.timeBase = .clock ↔ t.clockMode.isSome)

theorem checkBase_iff (t : Attrs) : checkBase t = .ok () ↔ BaseParameters t := by
  unfold checkBase BaseParameters
  cases t.timeBase <;> cases t.frameRate <;> cases t.dropMode <;> cases t.markerMode <;> cases t.clockMode <;>
    simp [throw, throwThe, MonadExceptOf.throw, bind, Except.bind, pure, Except.pure]

theorem checkAll_iff {α : Type} (f : α → Except Err Unit) : ∀ l, checkAll f l = .ok () ↔ ∀ x ∈ l, f x = .ok ()
  | [] => by simp [checkAll]
  | x :: xs => by
    have ih := checkAll_iff f xs
    cases hx : f x with
    | error e => simp [checkAll, hx, bind, Except.bind]
    | ok v => simp [checkAll, hx, bind, Except.bind, ih]

/-- Sizes are well formed, and in pixels only if the document has an extent; line heights are not asked about pixels. -/
def SizesOk (t : Attrs) (styles : List StyleSizes) (regions : List RegionSizes) : Prop :=
  (∀ s ∈ styles, (∀ f, s.fontSize = some f → ∃ u d, readFont f = some (u, d) ∧ (u = .px → t.extent.isSome)) ∧
    ∀ l, s.lineHeight = some l → (readLine l).isSome) ∧
  ∀ r ∈ regions, (∃ u x, readOrigin r.origin = some (u, x) ∧ (u = .px → t.extent.isSome)) ∧
    ∃ u x, readExtent r.extent = some (u, x) ∧ (u = .px → t.extent.isSome)

theorem needsExtent_iff (t : Attrs) (u : Measure) : needsExtent t u = .ok () ↔ (u = .px → t.extent.isSome = true) := by
  unfold needsExtent
  cases u <;> cases t.extent <;> simp

theorem checkSize_iff {α : Type} (t : Attrs) (o : Option (Measure × α)) : checkSize t o = .ok () ↔
    ∃ u d, o = some (u, d) ∧ (u = .px → t.extent.isSome = true) := by
  cases o with
  | none => simp [checkSize]
  | some x =>
    obtain ⟨u, d⟩ := x
    rw [checkSize, needsExtent_iff]
    constructor
    · intro h; exact ⟨u, d, rfl, h⟩
    · rintro ⟨u', d', h1, h2⟩
      simp only [Option.some.injEq, Prod.mk.injEq] at h1
      rw [h1.1]; exact h2

theorem checkStyle_iff (t : Attrs) (s : StyleSizes) : checkStyle t s = .ok () ↔
    (∀ f, s.fontSize = some f → ∃ u d, readFont f = some (u, d) ∧ (u = .px → t.extent.isSome)) ∧
    ∀ l, s.lineHeight = some l → (readLine l).isSome := by
  obtain ⟨fs, lh⟩ := s
  cases fs with
  | none =>
    cases lh with
    | none => simp [checkStyle]
    | some l => cases hl : readLine l <;> simp [checkStyle, hl]
  | some f =>
    simp only [Option.some.injEq, forall_eq']
    rw [← checkSize_iff]
    cases lh with
    | none => cases h : checkSize t (readFont f) <;> simp [checkStyle, h]
    | some l => cases h : checkSize t (readFont f) <;> cases hl : readLine l <;> simp [checkStyle, hl, h]

theorem checkRegion_iff (t : Attrs) (r : RegionSizes) : checkRegion t r = .ok () ↔
    (∃ u x, readOrigin r.origin = some (u, x) ∧ (u = .px → t.extent.isSome)) ∧
    ∃ u x, readExtent r.extent = some (u, x) ∧ (u = .px → t.extent.isSome) := by
  rw [← checkSize_iff, ← checkSize_iff]
  unfold checkRegion
  cases checkSize t (readOrigin r.origin) <;> simp

/-- **C70**: a document passes the checks of its parameters and sizes exactly if the cell resolution is two positive numbers, its
extent, if any, is two sizes in pixels, the parameters are those of its time base, all sizes are well formed, and
font sizes, origins and extents are in pixels only if the document has an extent. -/
theorem C70_accepted_iff (t : Attrs) (styles : List StyleSizes) (regions : List RegionSizes) : check t styles regions = .ok () ↔
    (readResolution t.cellResolution).isSome ∧ (∀ e, t.extent = some e → '-' ∉ e ∧ ∃ h v, Pair .px e h v) ∧
    BaseParameters t ∧ SizesOk t styles regions := by
  have hext : checkExtent t = .ok () ↔ ∀ e, t.extent = some e → '-' ∉ e ∧ ∃ h v, Pair .px e h v := by
    unfold checkExtent
    cases t.extent with
    | none => simp
    | some e =>
      simp only [Option.some.injEq, forall_eq']
      constructor
      · intro h
        split at h
        · rename_i x hr
          have := (Verif.Size.C69_extents e .px x.1 x.2).1 hr
          exact ⟨this.1, x.1, x.2, this.2⟩
        · cases h
      · rintro ⟨hm, h, v, hp⟩
        rw [(Verif.Size.C69_extents e .px h v).2 ⟨hm, hp⟩]
  have hsz : SizesOk t styles regions ↔ checkAll (checkStyle t) styles = .ok () ∧ checkAll (checkRegion t) regions = .ok () := by
    rw [checkAll_iff, checkAll_iff]
    unfold SizesOk
    constructor
    · rintro ⟨h1, h2⟩
      exact ⟨fun s hs => (checkStyle_iff t s).2 (h1 s hs), fun r hr => (checkRegion_iff t r).2 (h2 r hr)⟩
    · rintro ⟨h1, h2⟩
      exact ⟨fun s hs => (checkStyle_iff t s).1 (h1 s hs), fun r hr => (checkRegion_iff t r).1 (h2 r hr)⟩
  rw [← hext, ← checkBase_iff, hsz]
  unfold check
  cases readResolution t.cellResolution with
  | none => simp [throw, throwThe, MonadExceptOf.throw, bind, Except.bind]
  | some x =>
    cases checkExtent t <;> cases checkBase t <;> cases checkAll (checkStyle t) styles <;>
      simp [bind, Except.bind]

/-- **C70**: in an accepted document without extent no font size, origin or extent is in pixels.  Missing: line heights
(`C70_false_line_height`). -/
theorem C70_pixels_need_extent_partial (t : Attrs) (styles : List StyleSizes) (regions : List RegionSizes)
    (h : check t styles regions = .ok ()) (he : t.extent = none) :
    (∀ s ∈ styles, ∀ f, s.fontSize = some f → ∀ n, ¬ Length .px f n ∧ ∀ m, ¬ Pair .px f n m) ∧
    ∀ r ∈ regions, ∀ n m, ¬ Pair .px r.origin n m ∧ ¬ Pair .px r.extent n m := by
  obtain ⟨_, _, _, hs, hr⟩ := (C70_accepted_iff t styles regions).1 h
  constructor
  · intro s hsm f hf n
    obtain ⟨u, d, hrd, hpx⟩ := (hs s hsm).1 f hf
    have hu : u ≠ .px := by intro hu; have := hpx hu; rw [he] at this; simp at this
    obtain ⟨hm, _⟩ := (Verif.Size.C69_font_sizes f u d).1 hrd
    have no : ∀ d', readFont f ≠ some (.px, d') := by
      intro d' h'
      rw [hrd] at h'
      simp only [Option.some.injEq, Prod.mk.injEq] at h'
      exact hu h'.1
    refine ⟨fun hl => ?_, fun m hp => ?_⟩
    · exact no ⟨none, n⟩ ((Verif.Size.C69_font_sizes f .px ⟨none, n⟩).2 ⟨hm, .inl ⟨rfl, hl⟩⟩)
    · exact no ⟨some n, m⟩ ((Verif.Size.C69_font_sizes f .px ⟨some n, m⟩).2 ⟨hm, .inr ⟨n, rfl, hp⟩⟩)
  · intro r hrm n m
    obtain ⟨⟨u, x, ho, h1⟩, ⟨u', x', hx, h2⟩⟩ := hr r hrm
    constructor
    · intro hp
      have := (Verif.Size.C69_origins r.origin .px n.abs m.abs).2 ⟨n, m, hp, rfl, rfl⟩
      rw [ho] at this
      simp only [Option.some.injEq, Prod.mk.injEq] at this
      have := h1 this.1
      rw [he] at this; simp at this
    · intro hp
      obtain ⟨hm, _⟩ := (Verif.Size.C69_extents r.extent u' x'.1 x'.2).1 hx
      have := (Verif.Size.C69_extents r.extent .px n m).2 ⟨hm, hp⟩
      rw [hx] at this
      simp only [Option.some.injEq, Prod.mk.injEq] at this
      have := h2 this.1
      rw [he] at this; simp at this

def exTt : Attrs :=
  { lang := "en".toList, timeBase := .clock, clockMode := some "utc".toList, cellResolution := "32 15".toList,
    sequenceIdentifier := "s".toList, sequenceNumber := 1, extent := some "1920px 1080px".toList }

example : check exTt [⟨some "72px".toList, some "125%".toList⟩] [⟨"0px 900px".toList, "100% 20%".toList⟩] = .ok () ∧
    check { exTt with extent := none } [⟨some "72px".toList, none⟩] [] = .error .noExtent ∧
    check { exTt with clockMode := none } [] [] = .error .missing ∧ check { exTt with timeBase := .media } [] [] = .error .excess ∧
    check { exTt with extent := some "32c 15c".toList } [] [] = .error .value := by decide +kernel

/-- A document with a line height in pixels and no extent is accepted; as soon as an element refers to the style the line
height cannot be computed, which ends in an exception without explanation. -/
theorem C70_false_line_height : check { exTt with extent := none } [⟨none, some "72px".toList⟩] [] = .ok () ∧
    pixelsToCells { exTt with extent := none } ⟨none, 72⟩ = .error .bare := by decide +kernel

/-- **C70**: in an accepted document with an extent sizes in pixels turn into cells in proportion of the cell resolution to
the extent.  Missing: an extent of zero (`C70_false_zero_extent`). -/
theorem C70_pixels_convert_partial (t : Attrs) (styles : List StyleSizes) (regions : List RegionSizes)
    (h : check t styles regions = .ok ()) (e : Text) (he : t.extent = some e) :
    ∃ eh ev rh rv, Pair .px e eh ev ∧ readResolution t.cellResolution = some (rh, rv) ∧
      (eh ≠ 0 → ev ≠ 0 → ∀ d, pixelsToCells t d = .ok (toCells ⟨rh / eh, rv / ev⟩ d)) := by
  obtain ⟨hr, hx, _⟩ := (C70_accepted_iff t styles regions).1 h
  obtain ⟨hm, eh, ev, hp⟩ := hx e he
  obtain ⟨x, hx⟩ := Option.isSome_iff_exists.1 hr
  refine ⟨eh, ev, x.1, x.2, hp, hx, ?_⟩
  intro h0 h1 d
  have hre := (Verif.Size.C69_extents e .px eh ev).2 ⟨hm, hp⟩
  unfold pixelsToCells toCells
  rw [he, Option.bind_some, hre, hx]
  obtain ⟨dh, dv⟩ := d
  cases dh with
  | none => simp only [if_neg h1]; rw [Rat.div_def, Rat.div_def, Rat.mul_assoc]
  | some dh =>
    have : ¬ (eh = 0 ∨ ev = 0) := by rw [not_or]; exact ⟨h0, h1⟩
    simp only [if_neg this]
    rw [Rat.div_def, Rat.div_def, Rat.mul_assoc, Rat.div_def, Rat.div_def, Rat.mul_assoc]

/-- An extent of zero is accepted, and dividing by it fails. -/
theorem C70_false_zero_extent : check { exTt with extent := some "0px 0px".toList } [⟨some "72px".toList, none⟩] [] = .ok () ∧
    pixelsToCells { exTt with extent := some "0px 0px".toList } ⟨none, 72⟩ = .error .zero := by decide +kernel

/-! ### C71: copies -/

/-- **C71**: the copy of a document's tt element has all its parameters.  Missing: `xml:space`
(`C71_false_space`). -/
theorem C71_parameters_kept_partial (t : Attrs) : copy t = { t with space := none } ∧ (t.space = none → copy t = t) := by
  obtain ⟨lang, space, base, a, b, c, d, e, f, g, h, i, j, k, l, m, n⟩ := t
  refine ⟨rfl, ?_⟩
  intro hs
  simp only at hs
  subst hs
  rfl

/-- **C71**: it passes the same checks. -/
theorem C71_copy_accepted (t : Attrs) (styles : List StyleSizes) (regions : List RegionSizes) :
    check (copy t) styles regions = check t styles regions := by
  have e1 : checkExtent (copy t) = checkExtent t := rfl
  have e2 : checkBase (copy t) = checkBase t := rfl
  have e3 : checkStyle (copy t) = checkStyle t := rfl
  have e4 : checkRegion (copy t) = checkRegion t := rfl
  unfold check
  rw [e1, e2, e3, e4]
  rfl

/-- The white space handling of the document is not copied. -/
theorem C71_false_space : (copy { exTt with space := some "preserve".toList }).space = none := rfl

/-! ### C72: sequences made from documents -/

/-- **C72**: a sequence made from a document takes that document.  Missing: gps times
(`C72_false_gps`). -/
theorem C72_takes_its_document_partial (t : Attrs) (hm : t.timeBase = .clock → t.clockMode = some "local".toList ∨ t.clockMode = some "utc".toList) :
    (Seq.ofDoc t).compatible t = .ok () := by
  unfold Seq.compatible Seq.ofDoc
  simp only [ne_eq, not_true_eq_false, ↓reduceIte]
  have hg : ∀ o : Option Text, groupOk o o = .ok () := by
    intro o; cases o <;> simp [groupOk]
  cases hb : t.timeBase with
  | media => simp only [getClock]; simpa using hg _
  | smpte => simp only [getClock]; simpa using hg _
  | clock =>
    rcases hm hb with h1 | h1
    · rw [h1]; simp only [getClock, if_pos]; simpa using hg _
    · rw [h1]
      have : (some "utc".toList : Option Text) ≠ some "local".toList := by decide
      simp only [getClock, if_pos, if_neg this]; simpa using hg _

/-- **C72**: a sequence takes exactly the documents of its identifier whose time base is that of its clock, whose clock mode is too if the
time base is clock, and which name no group, or no other than the group of the sequence. -/
theorem C72_takes_exactly (s : Seq) (t : Attrs) :
    s.compatible t = .ok () ↔
      s.sequenceIdentifier = t.sequenceIdentifier ∧
      (∃ c, s.clock = some c ∧ c.timeBase = t.timeBase ∧ (t.timeBase = .clock → c.clockMode = t.clockMode)) ∧
      (∀ g g', t.authorsGroupIdentifier = some g → s.group = some g' → g = [] ∨ g = g') := by
  unfold Seq.compatible
  by_cases h1 : s.sequenceIdentifier = t.sequenceIdentifier
  · rw [if_neg (Classical.not_not.2 h1)]
    cases hc : s.clock with
    | none => simp
    | some c =>
      simp only
      by_cases h2 : c.timeBase = t.timeBase
      · rw [if_neg (Classical.not_not.2 h2)]
        by_cases h3 : c.timeBase = .clock ∧ c.clockMode ≠ t.clockMode
        · rw [if_pos h3]
          refine ⟨fun h => (by cases h), fun h => ?_⟩
          obtain ⟨_, ⟨c', hc', _, hm⟩, _⟩ := h
          cases hc'
          exact absurd (hm (h2 ▸ h3.1)) h3.2
        · rw [if_neg h3]
          have h3' : t.timeBase = .clock → c.clockMode = t.clockMode := by
            intro hb
            by_cases hm : c.clockMode = t.clockMode
            · exact hm
            · exact absurd ⟨h2.trans hb, hm⟩ h3
          have hg : groupOk t.authorsGroupIdentifier s.group = .ok () ↔
              ∀ g g', t.authorsGroupIdentifier = some g → s.group = some g' → g = [] ∨ g = g' := by
            cases ht : t.authorsGroupIdentifier with
            | none => simp [groupOk]
            | some g =>
              cases hs : s.group with
              | none => simp [groupOk]
              | some g' =>
                by_cases hgg : g ≠ [] ∧ g ≠ g'
                · simp only [groupOk, if_pos hgg]
                  refine ⟨fun h => (by cases h), fun h => ?_⟩
                  rcases h g g' rfl rfl with h | h
                  · exact absurd h hgg.1
                  · exact absurd h hgg.2
                · simp only [groupOk, if_neg hgg, true_iff]
                  intro a b ha hb
                  cases ha; cases hb
                  by_cases he : g = []
                  · exact .inl he
                  · by_cases he' : g = g'
                    · exact .inr he'
                    · exact absurd ⟨he, he'⟩ hgg
          rw [hg]
          exact ⟨fun h => ⟨h1, ⟨c, rfl, h2, h3'⟩, h⟩, fun h => h.2.2⟩
      · rw [if_pos h2]
        refine ⟨fun h => (by cases h), fun h => ?_⟩
        obtain ⟨_, ⟨c', hc', hb, _⟩, _⟩ := h
        cases hc'
        exact absurd hb h2
  · rw [if_pos h1]
    exact ⟨fun h => (by cases h), fun h => absurd h.1 h1⟩

/-- The sequence of an example takes a document without a group, and refuses other groups, time bases and clock modes. -/
example : let s : Seq := Seq.ofDoc { exTt with authorsGroupIdentifier := some "a".toList, clockMode := some "utc".toList }
    [s.compatible { exTt with clockMode := some "utc".toList, authorsGroupIdentifier := none },
      s.compatible { exTt with clockMode := some "utc".toList, authorsGroupIdentifier := some "b".toList },
      s.compatible { exTt with timeBase := .media },
      s.compatible { exTt with clockMode := some "local".toList }].map (fun r => match r with | .ok _ => none | .error e => some e) =
    [none, some .group, some .incompatible, some .incompatible] := by decide +kernel

/-- **C72**: the documents such a sequence makes are accepted and taken by the sequence, are numbered one by one from one, and
carry its identifier, group, language and time base.  Missing: smpte and gps times (`C72_false_smpte`,
`C72_false_gps`). -/
theorem C72_new_documents_partial (t : Attrs) (hb : t.timeBase ≠ .smpte)
    (hm : t.timeBase = .clock → t.clockMode = some "local".toList ∨ t.clockMode = some "utc".toList)
    (s : Seq) (n : Nat) (hs : s = { Seq.ofDoc t with last := n }) :
    ∃ d, s.newDocument = some ({ Seq.ofDoc t with last := n + 1 }, d) ∧ check d [] [] = .ok () ∧ s.compatible d = .ok () ∧
      d.sequenceNumber = n + 1 ∧ d.sequenceIdentifier = t.sequenceIdentifier ∧ d.authorsGroupIdentifier = t.authorsGroupIdentifier ∧
      d.lang = t.lang ∧ d.timeBase = t.timeBase ∧ (t.timeBase = .clock → d.clockMode = t.clockMode) := by
  have hres : (readResolution "32 15".toList).isSome = true := by decide +kernel
  have hg : ∀ o : Option Text, groupOk o o = .ok () := by
    intro o; cases o <;> simp [groupOk]
  subst hs
  have key : ∀ (b : Base) (m : Option Text), getClock t.timeBase t.clockMode = some ⟨b, m⟩ → b ≠ .smpte → (b = .clock ↔ m.isSome = true) →
      b = t.timeBase → (b = .clock → m = t.clockMode) →
      ∃ d, ({ Seq.ofDoc t with last := n } : Seq).newDocument = some ({ Seq.ofDoc t with last := n + 1 }, d) ∧ check d [] [] = .ok () ∧
      ({ Seq.ofDoc t with last := n } : Seq).compatible d = .ok () ∧
      d.sequenceNumber = n + 1 ∧ d.sequenceIdentifier = t.sequenceIdentifier ∧ d.authorsGroupIdentifier = t.authorsGroupIdentifier ∧
      d.lang = t.lang ∧ d.timeBase = t.timeBase ∧ (t.timeBase = .clock → d.clockMode = t.clockMode) := by
    intro b m hc h1 h2 h3 h4
    refine ⟨create b m t.sequenceIdentifier t.authorsGroupIdentifier (n + 1) t.lang, ?_, ?_, ?_, rfl, rfl, rfl, rfl, h3, ?_⟩
    · simp only [Seq.newDocument, Seq.ofDoc, hc, Option.map_some]
    · rw [C70_accepted_iff]
      refine ⟨hres, by simp [create], ⟨fun h => absurd h h1, fun _ => ⟨rfl, rfl⟩, h2⟩, by simp, by simp⟩
    · simp only [Seq.compatible, Seq.ofDoc, hc, create, ne_eq, not_true_eq_false, ↓reduceIte, and_false]
      exact hg _
    · intro h; exact h4 (h3.trans h)
  cases hb' : t.timeBase with
  | smpte => exact absurd hb' hb
  | media => exact hb' ▸ key .media none (by rw [hb']; rfl) (by simp) (by simp) hb'.symm (by simp)
  | clock =>
    rcases hm hb' with h1 | h1
    · exact hb' ▸ key .clock (some "local".toList) (by rw [hb', h1]; rfl) (by simp) (by simp) hb'.symm (by simp [h1])
    · exact hb' ▸ key .clock (some "utc".toList) (by rw [hb', h1]; decide) (by simp) (by simp) hb'.symm (by simp [h1])

example : (Seq.ofDoc exTt).compatible exTt = .ok () ∧ ((Seq.ofDoc exTt).newDocument.map (fun r => check r.2 [] [])) = some (.ok ()) := by
  decide +kernel

/-- A document with gps times is accepted, but the sequence made from it has no clock, and already its first document fails. -/
theorem C72_false_gps : check { exTt with clockMode := some "gps".toList } [] [] = .ok () ∧
    (Seq.ofDoc { exTt with clockMode := some "gps".toList }).compatible { exTt with clockMode := some "gps".toList } = .error .noClock ∧
    (Seq.ofDoc { exTt with clockMode := some "gps".toList }).newDocument = none := by decide +kernel

def exSmpte : Attrs :=
  { lang := "en".toList, timeBase := .smpte, frameRate := some "25".toList, dropMode := some "nonDrop".toList,
    markerMode := some "continuous".toList, cellResolution := "32 15".toList, sequenceIdentifier := "s".toList, sequenceNumber := 1 }

/-- The documents of a sequence with smpte times lack their parameters. -/
theorem C72_false_smpte : check exSmpte [] [] = .ok () ∧
    ((Seq.ofDoc exSmpte).newDocument.map (fun r => check r.2 [] [])) = some (.error .missing) := by decide +kernel

end Verif.Tt
