import Verif.Style.Compute

/-
C30 and C31: precedence of style attributes, relative font sizes.
-/
namespace Verif.Style

/-! ### Specification -/

/-- The first value there is. -/
def firstOf {α : Type} : List (Option α) → Option α
  | [] => none
  | some v :: _ => some v
  | none :: os => firstOf os

/-- An element on the way from the body to some element, as style computation sees it: the resolution
of its style references, the computed style of the region in force, and whether its font size may stay
relative (body and div, bindings/__init__.py:865-867, 981-983). -/
structure Level where
  spec : Specified
  region : Option Computed
  defer : Bool

/-- The computed style of the last element of a chain: each element is computed from its own specified
style, the computed style of its parent and that of its region (presentation.py:99-120). -/
def chain (g : Geometry) (ls : List Level) : Option Computed :=
  ls.foldl (fun parent l => some (compute g l.spec parent l.region l.defer)) none

/-- The sizes along the two directions; a single number stands for both (_ebuttdt.py:615). -/
def Dim.axes (d : Dim) : Rat × Rat := (d.h.getD d.v, d.v)

/-- The font size a chain stands for, starting from `base`: an absolute size replaces what is around
it, a percentage scales it. Pixels are turned into cells with the cells per pixel of each direction; a single number is
measured vertically. -/
def specSize (g : Geometry) (base : Rat × Rat) : List Level → Rat × Rat
  | [] => base
  | l :: ls =>
    match l.spec.fs with
    | none => specSize g base ls
    | some (.pct d) => specSize g (base.1 * d.axes.1 / 100, base.2 * d.axes.2 / 100) ls
    | some (.cell d) => specSize g d.axes ls
    | some (.px ⟨some h, v⟩) => specSize g (h * g.kh, v * g.kv) ls
    | some (.px ⟨none, v⟩) => specSize g (v * g.kv, v * g.kv) ls

/-! ### C30 -/

theorem add_resolve (own : Name → Specified) : ∀ (l : List Name) (s : Specified) (x : IAttr),
    (l.foldl (fun s x => add s (own x)) s).inh x = (s.inh x).or (l.findSome? (fun n => (own n).inh x))
  | [], s, x => by simp
  | n :: ns, s, x => by
    rw [List.foldl_cons, add_resolve own ns, List.findSome?_cons]
    simp only [add]
    cases s.inh x <;> cases (own n).inh x <;> simp

theorem add_resolve_simple (own : Name → Specified) : ∀ (l : List Name) (s : Specified) (x : SAttr),
    (l.foldl (fun s x => add s (own x)) s).simple x = (s.simple x).or (l.findSome? (fun n => (own n).simple x))
  | [], s, x => by simp
  | n :: ns, s, x => by
    rw [List.foldl_cons, add_resolve_simple own ns, List.findSome?_cons]
    simp only [add]
    cases s.simple x <;> cases (own n).simple x <;> simp

theorem add_resolve_fs (own : Name → Specified) : ∀ (l : List Name) (s : Specified),
    (l.foldl (fun s x => add s (own x)) s).fs = s.fs.or (l.findSome? (fun n => (own n).fs))
  | [], s => by simp
  | n :: ns, s => by
    rw [List.foldl_cons, add_resolve_fs own ns, List.findSome?_cons]
    simp only [add]
    cases s.fs <;> cases (own n).fs <;> simp

theorem add_resolve_lh (own : Name → Specified) : ∀ (l : List Name) (s : Specified),
    (l.foldl (fun s x => add s (own x)) s).lh = s.lh.or (l.findSome? (fun n => (own n).lh))
  | [], s => by simp
  | n :: ns, s => by
    rw [List.foldl_cons, add_resolve_lh own ns, List.findSome?_cons]
    simp only [add]
    cases s.lh <;> cases (own n).lh <;> simp

/-- **C30**: the specified value of an attribute of an element that refers to styles is the value its
references stand for: a style goes before the styles it refers to, an earlier reference before a later
one.  The same holds for attributes that are not inherited, for the font size and the line height. -/
theorem C30_specified_value {sh : Sheet} {c : Cache} (h : Reached sh c) {refs l : List Name}
    (hl : (collect sh c refs).1 = .ok l) (own : Name → Specified) :
    (∀ x v, (resolve own l).inh x = some v ↔ GivesList sh (fun n => (own n).inh x) refs v) ∧
    (∀ x v, (resolve own l).simple x = some v ↔ GivesList sh (fun n => (own n).simple x) refs v) ∧
    (∀ v, (resolve own l).fs = some v ↔ GivesList sh (fun n => (own n).fs) refs v) ∧
    (∀ v, (resolve own l).lh = some v ↔ GivesList sh (fun n => (own n).lh) refs v) := by
  refine ⟨?_, ?_, ?_, ?_⟩
  · intro x v
    rw [← C29_order_gives_priority h hl]
    simp [resolve, add_resolve]
  · intro x v
    rw [← C29_order_gives_priority h hl]
    simp [resolve, add_resolve_simple]
  · intro v
    rw [← C29_order_gives_priority h hl]
    simp [resolve, add_resolve_fs]
  · intro v
    rw [← C29_order_gives_priority h hl]
    simp [resolve, add_resolve_lh]

theorem inherited_eq (x : IAttr) (spec : Specified) (parent region : Option Computed) :
    inherited x spec parent region = firstOf [spec.inh x, parent.bind (·.real x), region.bind (·.real x)] := by
  rw [inherited]
  cases spec.inh x with
  | some v => rfl
  | none =>
    cases parent.bind (·.real x) with
    | some v => rfl
    | none => cases region.bind (·.real x) <;> rfl

theorem compute_inh (g : Geometry) (spec : Specified) (parent region : Option Computed) (defer : Bool) (x : IAttr) :
    (compute g spec parent region defer).inh x = orDefault x (inherited x spec parent region) := rfl

/-- **C30**: one step of inheritance.  The computed value is the element's own specified value, else the
parent's computed value unless that is only the default, else the region's unless that is only the
default, else the default. -/
theorem C30_inherited_step (g : Geometry) (spec : Specified) (parent region : Option Computed) (defer : Bool) (x : IAttr) :
    ((compute g spec parent region defer).inh x).1 =
      (firstOf [spec.inh x, parent.bind (·.real x), region.bind (·.real x)]).or x.default ∧
    (((compute g spec parent region defer).inh x).2 = true ↔
      firstOf [spec.inh x, parent.bind (·.real x), region.bind (·.real x)] = none) := by
  rw [compute_inh, inherited_eq]
  cases firstOf [spec.inh x, parent.bind (·.real x), region.bind (·.real x)] <;> simp [orDefault]

theorem real_compute (g : Geometry) (spec : Specified) (parent region : Option Computed) (defer : Bool) (x : IAttr) :
    (compute g spec parent region defer).real x =
      firstOf [spec.inh x, parent.bind (·.real x), region.bind (·.real x)] := by
  rw [Computed.real, compute_inh, inherited_eq]
  cases firstOf [spec.inh x, parent.bind (·.real x), region.bind (·.real x)] <;> simp [orDefault]

theorem firstOf_append {α : Type} : ∀ (a b : List (Option α)), firstOf (a ++ b) = (firstOf a).or (firstOf b)
  | [], b => by simp [firstOf]
  | some v :: a, b => by simp [firstOf]
  | none :: a, b => by simp [firstOf, firstOf_append a b]

theorem chain_append (g : Geometry) (ls : List Level) (l : Level) :
    chain g (ls ++ [l]) = some (compute g l.spec (chain g ls) l.region l.defer) := by
  simp [chain, List.foldl_append]

theorem snocInd {α : Type} {p : List α → Prop} (nil : p []) (snoc : ∀ l x, p l → p (l ++ [x])) : ∀ l, p l := by
  intro l
  have : ∀ r : List α, p r.reverse := by
    intro r
    induction r with
    | nil => exact nil
    | cons x xs ih => rw [List.reverse_cons]; exact snoc _ _ ih
  simpa using this l.reverse

theorem real_chain (g : Geometry) (x : IAttr) : ∀ ls : List Level,
    (chain g ls).bind (·.real x) =
      firstOf ((ls.reverse.map (fun l => l.spec.inh x)) ++ ls.map (fun l => l.region.bind (·.real x))) := by
  apply snocInd
  · rfl
  · intro ls l ih
    rw [chain_append]
    simp only [Option.bind_some]
    rw [real_compute, ih]
    simp only [List.reverse_append, List.reverse_cons, List.reverse_nil, List.nil_append, List.map_append, List.map_cons,
      List.map_nil, List.cons_append]
    rw [← List.append_assoc]
    generalize List.map (fun l => l.spec.inh x) ls.reverse ++ List.map (fun l => l.region.bind (·.real x)) ls = q
    cases h1 : l.spec.inh x with
    | some v => simp [firstOf]
    | none =>
      simp only [firstOf]
      rw [firstOf_append]
      cases firstOf q with
      | some v => simp [firstOf]
      | none => simp [firstOf]

/-- **C30**: along any chain of elements from the body down, the computed value of an inherited attribute
is the first one found going from the element itself outwards; only if no element on the way specifies
the attribute do the regions count, the outermost first; and if there is none either, it is the
default. -/
theorem C30_inherited_chain (g : Geometry) (ls : List Level) (l : Level) (x : IAttr) :
    ∃ c, chain g (ls ++ [l]) = some c ∧
      (c.inh x).1 = (firstOf (((ls ++ [l]).reverse.map (fun l => l.spec.inh x)) ++
        (ls ++ [l]).map (fun l => l.region.bind (·.real x)))).or x.default := by
  refine ⟨_, chain_append g ls l, ?_⟩
  have h := real_chain g x (ls ++ [l])
  rw [chain_append] at h
  simp only [Option.bind_some] at h
  rw [← h]
  rw [Computed.real, compute_inh]
  cases inherited x l.spec (chain g ls) l.region <;> simp [orDefault]

/-- **C30**: an attribute that is not inherited is the element's own specified value or the default,
whatever the parent and the region are. -/
theorem C30_not_inherited (g : Geometry) (spec : Specified) (parent region : Option Computed) (defer : Bool) (x : SAttr) :
    (compute g spec parent region defer).simple x = (spec.simple x).getD x.default := rfl

/-- The computed style of a region: it has no parent with a style and lies in no region
(bindings/__init__.py:1059-1073). -/
def regionStyle (g : Geometry) (spec : Specified) : Computed := compute g spec none none false

/-- **C30**: what a region contributes is what its own style references and its own attributes
specify. -/
theorem C30_region_value (g : Geometry) (spec : Specified) (x : IAttr) :
    (regionStyle g spec).real x = spec.inh x := by
  rw [regionStyle, real_compute]
  cases h : spec.inh x <;> simp [firstOf]

/-- **C30**: the line height. The first of the element's own, the parent's and the region's, defaults not counted; pixels
become cells, a percentage is taken of the element's own computed font size as soon as that is in cells, and without any it is
`normal`. -/
theorem C30_line_height (g : Geometry) (spec : Specified) (parent region : Option Computed) (defer : Bool) :
    let c := compute g spec parent region defer
    let v := firstOf [spec.lh, parent.bind (·.realLH), region.bind (·.realLH)]
    (v = none → c.lh = (.normal, true)) ∧ (v = some .normal → c.lh = (.normal, false)) ∧
    (∀ x, v = some (.cell x) → c.lh = (.cell x, false)) ∧ (∀ x, v = some (.px x) → c.lh = (.cell (x * g.kv), false)) ∧
    (∀ x d, v = some (.pct x) → c.fs = some (.cell d) → c.lh = (.cell (d.axes.2 * x / 100), false)) ∧
    ∀ x, v = some (.pct x) → (∀ d, c.fs ≠ some (.cell d)) → c.lh = (.pct x, false) := by
  intro c v
  have hv : (spec.lh.or (parent.bind (·.realLH))).or (region.bind (·.realLH)) = v := by
    show _ = firstOf _
    cases spec.lh <;> cases parent.bind (·.realLH) <;> cases region.bind (·.realLH) <;> rfl
  have hc : c.lh = match lineHeight g spec.lh (parent.bind (·.realLH)) (region.bind (·.realLH)) c.fs with
      | some v => (v, false)
      | none => (.normal, true) := rfl
  rw [lineHeight, hv] at hc
  refine ⟨?_, ?_, ?_, ?_, ?_, ?_⟩
  · intro h; rw [hc, h]; rfl
  · intro h; rw [hc, h]; rfl
  · intro x h; rw [hc, h]; rfl
  · intro x h; rw [hc, h]; rfl
  · intro x d h hf; rw [hc, h, hf]; simp only [Option.map_some, Dim.axes, Rat.mul_comm]
  · intro x h hf
    rw [hc, h]
    cases hfs : c.fs with
    | none => rfl
    | some f =>
      cases f with
      | cell d => exact absurd hfs (hf d)
      | pct d => rfl
      | px d => rfl

example : (compute ⟨1, 1⟩ { lh := some (.pct 120), fs := some (.cell ⟨none, 2⟩) } none none false).lh = (.cell (12/5), false) ∧
    (compute ⟨1, 1⟩ { fs := some (.cell ⟨none, 5⟩) } (some (compute ⟨1, 1⟩ { lh := some (.pct 120), fs := some (.cell ⟨none, 2⟩) } none none false))
      none false).lh = (.cell (12/5), false) := by decide +kernel

/-! ### Font sizes -/

theorem axes_scale (p q : Dim) : (scaleDim p q).axes = (q.axes.1 * p.axes.1 / 100, q.axes.2 * p.axes.2 / 100) := by
  rcases p with ⟨_ | ph, pv⟩ <;> rcases q with ⟨_ | qh, qv⟩ <;> simp [scaleDim, Dim.axes]

/-- One more element. -/
def sizeStep (g : Geometry) (b : Rat × Rat) : Option FS → Rat × Rat
  | none => b
  | some (.pct d) => (b.1 * d.axes.1 / 100, b.2 * d.axes.2 / 100)
  | some (.cell d) => d.axes
  | some (.px ⟨some h, v⟩) => (h * g.kh, v * g.kv)
  | some (.px ⟨none, v⟩) => (v * g.kv, v * g.kv)

theorem sizeStep_px (g : Geometry) (b : Rat × Rat) (d : Dim) : sizeStep g b (some (.px d)) = (toCells g d).axes := by
  rcases d with ⟨_ | h, v⟩ <;> simp [sizeStep, toCells, Dim.axes]

theorem specSize_append (g : Geometry) : ∀ (ls : List Level) (b : Rat × Rat) (l : Level),
    specSize g b (ls ++ [l]) = sizeStep g (specSize g b ls) l.spec.fs
  | [], b, l => by
    simp only [List.nil_append, specSize]
    rcases l.spec.fs with _ | (_ | _ | ⟨_ | _, _⟩) <;> rfl
  | m :: ms, b, l => by
    simp only [List.cons_append, specSize]
    rcases m.spec.fs with _ | (_ | _ | ⟨_ | _, _⟩) <;> exact specSize_append g ms _ l

/-- How a computed font size, possibly still relative, stands for the size `z` over the base `b`. -/
def Stands (b z : Rat × Rat) : Option FS → Prop
  | none => z = b
  | some (.pct d) => z = (b.1 * d.axes.1 / 100, b.2 * d.axes.2 / 100)
  | some (.cell d) => z = d.axes
  | some (.px _) => False

/-- The region's font size is the base: `some` cells, or no region and one cell. -/
def BaseOf (b : Rat × Rat) (r : Option FS) : Prop :=
  match r with
  | some (.cell d) => d.axes = b
  | some _ => False
  | none => True

theorem axes_pct_pct (b p q : Rat × Rat) :
    ((b.1 * q.1 / 100 * p.1 / 100, b.2 * q.2 / 100 * p.2 / 100) : Rat × Rat) =
      (b.1 * (q.1 * p.1 / 100) / 100, b.2 * (q.2 * p.2 / 100) / 100) := by
  apply Prod.ext
  · grind
  · grind

/-- Body and div: the font size may stay relative. -/
theorem stands_container {g : Geometry} {b z : Rat × Rat} {spec parent region : Option FS} {hasR : Bool}
    (hr : region.isSome = hasR) (hb : BaseOf b region) (hz : Stands b z parent) :
    Stands b (sizeStep g z spec) (fontSize g spec parent region hasR true) := by
  subst hr
  cases spec with
  | none =>
    cases parent with
    | none =>
      cases region with
      | none => simpa [fontSize, Stands, sizeStep] using hz
      | some r =>
        cases r with
        | cell d => simp [fontSize, Stands, sizeStep, BaseOf] at *; rw [hz, hb]
        | pct d => simp [BaseOf] at hb
        | px d => simp [BaseOf] at hb
    | some f =>
      cases f with
      | px d => simp [Stands] at hz
      | cell d => simpa [fontSize, Stands, sizeStep] using hz
      | pct d =>
        cases region with
        | none => simpa [fontSize, Stands, sizeStep, settle] using hz
        | some r =>
          cases r with
          | cell e => simp [fontSize, Stands, sizeStep, BaseOf, settle, scale, axes_scale] at *; rw [hz, hb]
          | pct d => simp [BaseOf] at hb
          | px d => simp [BaseOf] at hb
  | some f =>
    cases f with
    | px d => rw [sizeStep_px]; simp [fontSize, Stands]
    | cell d => simp [fontSize, Stands, sizeStep]
    | pct p =>
      cases parent with
      | none =>
        cases region with
        | none => simp [fontSize, Stands, sizeStep, settle] at *; rw [hz]; exact ⟨rfl, rfl⟩
        | some r =>
          cases r with
          | cell e => simp [fontSize, Stands, sizeStep, BaseOf, settle, scale, axes_scale] at *; rw [hz, hb]; exact ⟨rfl, rfl⟩
          | pct d => simp [BaseOf] at hb
          | px d => simp [BaseOf] at hb
      | some f =>
        cases f with
        | px d => simp [Stands] at hz
        | cell d => simp [fontSize, Stands, sizeStep, settle, scale, axes_scale] at *; rw [hz]; exact ⟨rfl, rfl⟩
        | pct d =>
          simp only [fontSize, settle, scale, Stands, sizeStep, axes_scale, if_true] at *
          rw [hz]
          exact axes_pct_pct b p.axes d.axes

/-- p and span: the font size is settled. -/
theorem stands_settled {g : Geometry} {b z : Rat × Rat} {spec parent region : Option FS} {hasR : Bool}
    (hr : region.isSome = hasR) (hb : BaseOf b region) (h1 : region = none → b = (1, 1)) (hz : Stands b z parent)
    (hex : region = none ∨ (∀ d, spec ≠ some (.pct d)) ∨ ∀ d, parent ≠ some (.pct d)) :
    ∃ d, fontSize g spec parent region hasR false = some (.cell d) ∧ d.axes = sizeStep g z spec := by
  subst hr
  have hone : Dim.axes ⟨none, 1⟩ = (1, 1) := rfl
  cases spec with
  | none =>
    cases parent with
    | none =>
      cases region with
      | none => refine ⟨_, rfl, ?_⟩; simp [Stands, sizeStep] at *; rw [hz, h1]; rfl
      | some r =>
        cases r with
        | cell d => refine ⟨_, rfl, ?_⟩; simp [Stands, sizeStep, BaseOf] at *; rw [hz, hb]
        | pct d => simp [BaseOf] at hb
        | px d => simp [BaseOf] at hb
    | some f =>
      cases f with
      | px d => simp [Stands] at hz
      | cell d => refine ⟨_, rfl, ?_⟩; simp [Stands, sizeStep] at *; rw [hz]
      | pct d =>
        cases region with
        | none =>
          refine ⟨_, rfl, ?_⟩
          rw [axes_scale, hone]
          simp only [Stands, sizeStep] at *
          rw [hz, h1 trivial]
        | some r =>
          cases r with
          | cell e =>
            refine ⟨_, rfl, ?_⟩
            simp only [Stands, sizeStep, BaseOf] at *
            rw [axes_scale, hz, hb]
          | pct d => simp [BaseOf] at hb
          | px d => simp [BaseOf] at hb
  | some f =>
    cases f with
    | px d => exact ⟨_, rfl, (sizeStep_px g z d).symm⟩
    | cell d => exact ⟨_, rfl, rfl⟩
    | pct p =>
      cases parent with
      | none =>
        cases region with
        | none =>
          refine ⟨scaleDim p ⟨none, 1⟩, by simp [fontSize, settle, scale, defaultFS], ?_⟩
          rw [axes_scale, hone]
          simp only [Stands, sizeStep] at *
          rw [hz, h1 trivial]
        | some r =>
          cases r with
          | cell e =>
            refine ⟨_, rfl, ?_⟩
            simp only [Stands, sizeStep, BaseOf] at *
            rw [axes_scale, hz, hb]
          | pct d => simp [BaseOf] at hb
          | px d => simp [BaseOf] at hb
      | some f =>
        cases f with
        | px d => simp [Stands] at hz
        | cell d =>
          refine ⟨_, rfl, ?_⟩
          simp only [Stands, sizeStep] at *
          rw [axes_scale, hz]
        | pct d =>
          have hrn : region = none := by
            rcases hex with h | h | h
            · exact h
            · exact absurd rfl (h p)
            · exact absurd rfl (h d)
          subst hrn
          refine ⟨_, rfl, ?_⟩
          simp only [Stands, sizeStep] at *
          rw [axes_scale, axes_scale, hone, hz, h1 trivial]
          exact (axes_pct_pct (1, 1) p.axes d.axes).symm

/-- The region as an element around everything. -/
def regionLevel (s : Specified) : Level := ⟨s, none, false⟩

theorem fs_chain (g : Geometry) (ls : List Level) (l : Level) :
    (chain g (ls ++ [l])).bind (·.fs) =
      fontSize g l.spec.fs ((chain g ls).bind (·.fs)) (l.region.bind (·.fs)) l.region.isSome l.defer := by
  rw [chain_append]; rfl

/-- The region's computed font size is in cells and stands for the region's own font size. -/
theorem region_fs (g : Geometry) (s : Specified) :
    ∃ d, (regionStyle g s).fs = some (.cell d) ∧ d.axes = specSize g (1, 1) [regionLevel s] := by
  obtain ⟨d, h1, h2⟩ := stands_settled (g := g) (b := (1, 1)) (z := (1, 1)) (spec := s.fs) (parent := none) (region := none)
    rfl trivial (fun _ => rfl) rfl (Or.inl rfl)
  refine ⟨d, h1, ?_⟩
  rw [h2]
  have := specSize_append g [] (1, 1) (regionLevel s)
  rw [List.nil_append] at this
  rw [this]; rfl

theorem base_region (g : Geometry) (R : Option Specified) :
    BaseOf (specSize g (1, 1) (R.toList.map regionLevel)) ((R.map (regionStyle g)).bind (·.fs)) ∧
    ((R.map (regionStyle g)).bind (·.fs)).isSome = (R.map (regionStyle g)).isSome ∧
    ((R.map (regionStyle g)).bind (·.fs) = none → specSize g (1, 1) (R.toList.map regionLevel) = (1, 1)) := by
  cases R with
  | none => exact ⟨trivial, rfl, fun _ => rfl⟩
  | some s =>
    obtain ⟨d, h1, h2⟩ := region_fs g s
    refine ⟨?_, ?_, ?_⟩
    · simp only [Option.map_some, Option.bind_some, h1, BaseOf]; exact h2
    · simp [h1]
    · simp [h1]

theorem stands_containers {g : Geometry} {b : Rat × Rat} {R : Option Computed} (hb : BaseOf b (R.bind (·.fs)))
    (hR : (R.bind (·.fs)).isSome = R.isSome) : ∀ cs : List Level,
    (∀ l ∈ cs, l.defer = true ∧ (l.region = none ∨ l.region = R)) →
    Stands b (specSize g b cs) ((chain g cs).bind (·.fs)) := by
  apply snocInd
  · intro _; rfl
  · intro ls l ih h
    have hl := h l (by simp)
    rw [fs_chain, specSize_append, hl.1]
    rcases hl.2 with hr | hr
    · rw [hr]
      exact stands_container rfl trivial (ih (fun x hx => h x (List.mem_append_left _ hx)))
    · rw [hr]
      exact stands_container hR hb (ih (fun x hx => h x (List.mem_append_left _ hx)))

theorem not_pct_containers {g : Geometry} {R : Option Computed} (hpct : ∀ d, R.bind (·.fs) ≠ some (.pct d))
    (hR : (R.bind (·.fs)).isSome = R.isSome) (hsome : R.isSome = true) : ∀ cs2 cs1 : List Level,
    (∀ l ∈ cs2, l.defer = true ∧ l.region = R) → (∀ d, (chain g cs1).bind (·.fs) ≠ some (.pct d)) →
    ∀ d, (chain g (cs1 ++ cs2)).bind (·.fs) ≠ some (.pct d) := by
  apply snocInd
  · intro cs1 _ h; simpa using h
  · intro ls l ih cs1 h h1 d
    have ih := ih cs1 (fun x hx => h x (List.mem_append_left _ hx)) h1
    have hl := h l (by simp)
    rw [← List.append_assoc, fs_chain, hl.1, hl.2]
    revert ih
    generalize (chain g (cs1 ++ ls)).bind (·.fs) = parent
    intro ih
    revert hpct hR
    generalize R.bind (·.fs) = reg
    intro hpct hR
    cases reg with
    | none => rw [← hR] at hsome; simp at hsome
    | some r =>
      cases r with
      | pct e => exact absurd rfl (hpct e)
      | px e =>
        cases hs : l.spec.fs with
        | none =>
          cases parent with
          | none => simp [fontSize]
          | some f => cases f <;> first | (exact absurd rfl (ih _)) | simp [fontSize]
        | some f =>
          cases f with
          | cell q => simp [fontSize]
          | px q => simp [fontSize]
          | pct q =>
            cases parent with
            | none => simp [fontSize, settle, scale]
            | some f => cases f <;> first | (exact absurd rfl (ih _)) | simp [fontSize, settle, scale]
      | cell e =>
        cases hs : l.spec.fs with
        | none =>
          cases parent with
          | none => simp [fontSize]
          | some f => cases f <;> first | (exact absurd rfl (ih _)) | simp [fontSize]
        | some f =>
          cases f with
          | cell q => simp [fontSize]
          | px q => simp [fontSize]
          | pct q =>
            cases parent with
            | none => simp [fontSize, settle, scale]
            | some f => cases f <;> first | (exact absurd rfl (ih _)) | simp [fontSize, settle, scale]

theorem not_pct_start {g : Geometry} : ∀ cs : List Level, (∀ l ∈ cs, l.defer = true ∧ l.region = none) →
    (∀ l ∈ cs, ∀ d, l.spec.fs ≠ some (.pct d)) → ∀ d, (chain g cs).bind (·.fs) ≠ some (.pct d) := by
  apply snocInd
  · intro _ _ d; simp [chain]
  · intro ls l ih h hn d
    have ih := ih (fun x hx => h x (List.mem_append_left _ hx)) (fun x hx => hn x (List.mem_append_left _ hx))
    have hl := h l (by simp)
    have hln := hn l (by simp)
    rw [fs_chain, hl.1, hl.2]
    revert ih
    generalize (chain g ls).bind (·.fs) = parent
    intro ih
    cases hs : l.spec.fs with
    | none =>
      cases parent with
      | none => simp [fontSize]
      | some f => cases f <;> first | (exact absurd rfl (ih _)) | simp [fontSize]
    | some f =>
      cases f with
      | cell q => simp [fontSize]
      | px q => simp [fontSize]
      | pct q => exact absurd hs (hln q)

/-- **C31** (partial): the computed font size of a p, or of a span in it, is what the sizes on the way say: starting from one
cell, the region's font size if there is a region, then every element from the body down — an absolute
size replaces, a percentage scales, in both directions.  `cs1` are the body and the divs around which no
region is in force, `cs2` the divs from the one that has the region on.

Excluded is the case of `C31_false_deferred`: there is a region, the p itself has a percentage and one of
the elements outside the region has one too. -/
theorem C31_font_size_is_product_partial (g : Geometry) (cs1 cs2 spans : List Level) (p : Level) (R : Option Specified)
    (h1 : ∀ l ∈ cs1, l.defer = true ∧ l.region = none)
    (h2 : ∀ l ∈ cs2, l.defer = true ∧ l.region = R.map (regionStyle g))
    (h3 : ∀ l ∈ p :: spans, l.defer = false ∧ l.region = R.map (regionStyle g))
    (hex : R = none ∨ (∀ d, p.spec.fs ≠ some (.pct d)) ∨ ∀ l ∈ cs1, ∀ d, l.spec.fs ≠ some (.pct d)) :
    ∃ c d, chain g (cs1 ++ cs2 ++ p :: spans) = some c ∧ c.fs = some (.cell d) ∧
      d.axes = specSize g (1, 1) (R.toList.map regionLevel ++ (cs1 ++ cs2 ++ p :: spans)) := by
  have hsp : ∀ (a b : List Level) (z : Rat × Rat), specSize g z (a ++ b) = specSize g (specSize g z a) b := by
    intro a
    induction a with
    | nil => intro b z; rfl
    | cons m ms ih =>
      intro b z
      simp only [List.cons_append, specSize]
      rcases m.spec.fs with _ | (_ | _ | ⟨_ | _, _⟩) <;> exact ih b _
  obtain ⟨hb, hR, hn⟩ := base_region g R
  rw [hsp]
  generalize hbdef : specSize g (1, 1) (R.toList.map regionLevel) = b at *
  have hcs : Stands b (specSize g b (cs1 ++ cs2)) ((chain g (cs1 ++ cs2)).bind (·.fs)) := by
    apply stands_containers hb hR
    intro l hl
    rcases List.mem_append.1 hl with h | h
    · exact ⟨(h1 l h).1, Or.inl (h1 l h).2⟩
    · exact ⟨(h2 l h).1, Or.inr (h2 l h).2⟩
  have hexp : (R.map (regionStyle g)).bind (·.fs) = none ∨ (∀ d, p.spec.fs ≠ some (.pct d)) ∨
      ∀ d, (chain g (cs1 ++ cs2)).bind (·.fs) ≠ some (.pct d) := by
    rcases hex with h | h | h
    · subst h; exact Or.inl rfl
    · exact Or.inr (Or.inl h)
    · by_cases hs : R.isSome = true
      · refine Or.inr (Or.inr ?_)
        apply not_pct_containers (R := R.map (regionStyle g)) _ hR (by simpa using hs) cs2 cs1 h2 (not_pct_start cs1 h1 h)
        intro d hd
        rw [hd] at hb
        exact hb
      · cases R with
        | none => exact Or.inl rfl
        | some _ => simp at hs
  have key : ∀ sp : List Level, (∀ l ∈ sp, l.defer = false ∧ l.region = R.map (regionStyle g)) →
      ∃ c d, chain g (cs1 ++ cs2 ++ p :: sp) = some c ∧ c.fs = some (.cell d) ∧
        d.axes = specSize g b (cs1 ++ cs2 ++ p :: sp) := by
    apply snocInd
    · intro _
      have hp := h3 p (by simp)
      obtain ⟨d, hd, hax⟩ := stands_settled (g := g) (spec := p.spec.fs) hR hb hn hcs hexp
      refine ⟨_, d, chain_append g (cs1 ++ cs2) p, ?_, ?_⟩
      · have := fs_chain g (cs1 ++ cs2) p
        rw [chain_append] at this
        simp only [Option.bind_some] at this
        rw [this, hp.1, hp.2]
        exact hd
      · rw [specSize_append]; exact hax
    · intro ls l ih hl
      obtain ⟨c, d, hc, hd, hax⟩ := ih (fun x hx => hl x (List.mem_append_left _ hx))
      have hl' := hl l (by simp)
      have hparent : (chain g (cs1 ++ cs2 ++ p :: ls)).bind (·.fs) = some (.cell d) := by rw [hc]; exact hd
      obtain ⟨d', hd', hax'⟩ := stands_settled (g := g) (spec := l.spec.fs) (b := b) (z := specSize g b (cs1 ++ cs2 ++ p :: ls))
        (parent := (chain g (cs1 ++ cs2 ++ p :: ls)).bind (·.fs)) hR hb hn (by rw [hparent]; exact hax.symm)
        (Or.inr (Or.inr (by intro q; rw [hparent]; simp)))
      have heq : cs1 ++ cs2 ++ p :: (ls ++ [l]) = (cs1 ++ cs2 ++ p :: ls) ++ [l] := by simp
      rw [heq]
      refine ⟨_, d', chain_append g _ l, ?_, ?_⟩
      · have := fs_chain g (cs1 ++ cs2 ++ p :: ls) l
        rw [chain_append] at this
        simp only [Option.bind_some] at this
        rw [this, hl'.1, hl'.2]
        exact hd'
      · rw [specSize_append]; exact hax'
  exact key spans (fun l hl => h3 l (List.mem_cons_of_mem _ hl))

/-- A body at 50%, a div at 80% with a region of two cells, a p of 16 pixels and a span at 25% 50%: the theorem
applies. -/
example : specSize ⟨1/16, 1/20⟩ (1, 1) ([some (FS.cell ⟨none, 2⟩), some (.pct ⟨none, 50⟩), some (.pct ⟨none, 80⟩), some (.px ⟨some 16, 20⟩),
    some (.pct ⟨some 25, 50⟩)].map (fun f => (⟨{ fs := f }, none, false⟩ : Level))) = (1/4, 1/2) := by decide +kernel

example : (chain ⟨1/16, 1/20⟩ [⟨{ fs := some (.pct ⟨none, 50⟩) }, none, true⟩,
    ⟨{ fs := some (.pct ⟨none, 80⟩) }, some (regionStyle ⟨1/16, 1/20⟩ { fs := some (.cell ⟨none, 2⟩) }), true⟩,
    ⟨{}, some (regionStyle ⟨1/16, 1/20⟩ { fs := some (.cell ⟨none, 2⟩) }), false⟩]).bind (·.fs) = some (.cell ⟨none, 4/5⟩) := by
  decide +kernel

/-- The excluded case: body at 50%, p at 50% in a region with a font size of two cells.  The size is a
quarter of a cell, although half of half of two cells is half a cell: with a percentage on the p the
region's size is not used (bindings/__init__.py:224-225, 238-240). -/
theorem C31_false_deferred :
    let region := regionStyle ⟨1, 1⟩ { fs := some (.cell ⟨none, 2⟩) }
    let body : Level := ⟨{ fs := some (.pct ⟨none, 50⟩) }, none, true⟩
    let p : Level := ⟨{ fs := some (.pct ⟨none, 50⟩) }, some region, false⟩
    (chain ⟨1, 1⟩ [body, p]).bind (·.fs) = some (.cell ⟨none, 1/4⟩) ∧
    specSize ⟨1, 1⟩ (1, 1) [regionLevel { fs := some (.cell ⟨none, 2⟩) }, body, p] = (1/2, 1/2) := by
  decide +kernel

/-- The font size of p and span is always settled, in cells, also in the excluded case. -/
theorem C31_always_cells (g : Geometry) (ls : List Level) (l : Level) (hd : l.defer = false) (s : Option Specified)
    (hr : l.region = s.map (regionStyle g)) :
    (∀ m ∈ ls, m.region = none ∨ ∃ s, m.region = some (regionStyle g s)) →
    ∃ c d, chain g (ls ++ [l]) = some c ∧ c.fs = some (.cell d) := by
  intro hls
  have key : ∀ (spec parent region : Option FS) (hasR defer : Bool), (∀ d, parent ≠ some (.px d)) →
      (∀ d, region ≠ some (.px d)) → (∀ d, region ≠ some (.pct d)) →
      (∀ d, fontSize g spec parent region hasR defer ≠ some (.px d)) ∧
      (defer = false → ∃ d, fontSize g spec parent region hasR defer = some (.cell d)) := by
    intro spec parent region hasR defer hp hreg hreg'
    cases defer <;> cases hasR <;> rcases spec with _ | (_ | _ | _) <;> rcases parent with _ | (_ | _ | _) <;>
      rcases region with _ | (_ | _ | _) <;>
      first
        | exact absurd rfl (hp _)
        | exact absurd rfl (hreg _)
        | exact absurd rfl (hreg' _)
        | simp [fontSize, settle, scale, defaultFS]
  have hregion : ∀ (m : Level), (m.region = none ∨ ∃ s, m.region = some (regionStyle g s)) →
      (∀ d, m.region.bind (·.fs) ≠ some (.px d)) ∧ (∀ d, m.region.bind (·.fs) ≠ some (.pct d)) := by
    rintro m (h | ⟨s, h⟩)
    · rw [h]; simp
    · obtain ⟨d, hd, _⟩ := region_fs g s
      rw [h]; simp [hd]
  have hpx : ∀ ls : List Level, (∀ m ∈ ls, m.region = none ∨ ∃ s, m.region = some (regionStyle g s)) →
      ∀ d, (chain g ls).bind (·.fs) ≠ some (.px d) := by
    apply snocInd
    · intro _ d; simp [chain]
    · intro ms m ih h d
      rw [fs_chain]
      exact (key _ _ _ _ _ (ih (fun x hx => h x (List.mem_append_left _ hx))) (hregion m (h m (by simp))).1
        (hregion m (h m (by simp))).2).1 d
  have hl : l.region = none ∨ ∃ s, l.region = some (regionStyle g s) := by
    cases s with
    | none => exact Or.inl hr
    | some s => exact Or.inr ⟨s, hr⟩
  obtain ⟨d, h⟩ := (key l.spec.fs _ _ l.region.isSome l.defer (hpx ls hls) (hregion l hl).1 (hregion l hl).2).2 hd
  refine ⟨_, d, chain_append g ls l, ?_⟩
  have := fs_chain g ls l
  rw [chain_append] at this
  simp only [Option.bind_some] at this
  rw [this]; exact h

end Verif.Style
