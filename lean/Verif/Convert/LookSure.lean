import Verif.Convert.LookRunProps
import Verif.Convert.LookDedupProps
import Verif.Convert.LookFrame
import Mathlib.Algebra.Field.Rat

/-! That the documents a resequencer emits can be encoded. -/
namespace Verif.Convert

open Verif.Doc hiding Name
open Verif.Style Verif.Time Verif.Node
open Verif.Dedup (DElem)
open Verif.SegHead (mapN HDoc Full extractFull Held piecesOf newName labelsOf labelsOfL Merged IsSeg)

/-! ### Fonts -/

/-- A size none of whose dimensions is zero. -/
def Big (d : Dim) : Prop := d.v ≠ 0 ∧ d.h ≠ some 0

instance (d : Dim) : Decidable (Big d) := inferInstanceAs (Decidable (_ ∧ _))

/-- A font size that is not zero, in whatever unit. -/
def Nonzero : FS → Prop
  | .pct d => Big d
  | .cell d => Big d
  | .px d => Big d

instance : ∀ f : FS, Decidable (Nonzero f)
  | .pct d => inferInstanceAs (Decidable (Big d))
  | .cell d => inferInstanceAs (Decidable (Big d))
  | .px d => inferInstanceAs (Decidable (Big d))

/-- A head none of whose styles sets a font size of zero, in a document whose pixels have a size. -/
structure SizedHead (hd : Head) : Prop where
  kh : hd.geo.kh ≠ 0
  kv : hd.geo.kv ≠ 0
  own : ∀ p ∈ hd.sheet, ∀ f, (hd.own p.1).fs = some f → Nonzero f

theorem scaleDim_big {p q : Dim} (hp : Big p) (hq : Big q) : Big (scaleDim p q) := by
  obtain ⟨ph, pv⟩ := p
  obtain ⟨qh, qv⟩ := q
  obtain ⟨h1, h2⟩ := hp
  obtain ⟨h3, h4⟩ := hq
  have h100 : (100 : Rat) ≠ 0 := by decide
  have key : ∀ x y : Rat, x ≠ 0 → y ≠ 0 → x * y / 100 ≠ 0 := fun x y hx hy => div_ne_zero (mul_ne_zero hx hy) h100
  cases ph <;> cases qh <;> simp only [ne_eq, Option.some.injEq, scaleDim, Big] at * <;>
    refine ⟨key _ _ (by assumption) (by assumption), ?_⟩
  · simp
  · exact key _ _ (by assumption) (by assumption)
  · exact key _ _ (by assumption) (by assumption)
  · exact key _ _ (by assumption) (by assumption)

theorem scale_visible {p : Dim} {f : FS} (hp : Big p) (hf : Nonzero f) : Nonzero (scale p f) := by
  cases f <;> exact scaleDim_big hp hf

theorem default_visible : Nonzero defaultFS := by decide

theorem settle_visible {f : FS} (b : Bool) (hf : Nonzero f) : Nonzero (settle b f) := by
  cases f with
  | pct d =>
    cases b
    · exact scale_visible hf default_visible
    · exact hf
  | cell d => exact hf
  | px d => exact hf

theorem fontSize_visible {g : Geometry} (hh : g.kh ≠ 0) (hv : g.kv ≠ 0) {spec parent region : Option FS} {r b : Bool}
    (h1 : ∀ f, spec = some f → Nonzero f) (h2 : ∀ f, parent = some f → Nonzero f) (h3 : ∀ f, region = some f → Nonzero f)
    {f : FS} (hf : fontSize g spec parent region r b = some f) : Nonzero f := by
  have hres : ∀ res : Option FS, (∀ x, res = some x → Nonzero x) →
      (match res with
        | some (.px d) => some (.cell (toCells g d))
        | some x => some x
        | none => if b then none else some defaultFS) = some f → Nonzero f := by
    intro res hx he
    cases res with
    | none =>
      simp only at he
      split at he
      · cases he
      · cases he; exact default_visible
    | some x =>
      have := hx x rfl
      cases x with
      | pct d => cases he; exact this
      | cell d => cases he; exact this
      | px d =>
        cases he
        obtain ⟨dh, dv⟩ := d
        obtain ⟨t1, t2⟩ := this
        cases dh with
        | none => exact ⟨mul_ne_zero t1 hv, by simp [toCells]⟩
        | some y =>
          refine ⟨mul_ne_zero t1 hv, ?_⟩
          simp only [toCells, ne_eq, Option.some.injEq]
          exact mul_ne_zero (fun hc => t2 (by rw [hc])) hh
  refine hres _ ?_ hf
  intro x hx
  cases spec with
  | none =>
    cases parent with
    | none => exact h3 x hx
    | some pf =>
      cases pf with
      | pct p =>
        cases hx
        refine settle_visible b ?_
        cases region with
        | none => exact h2 (.pct p) rfl
        | some rf => exact scale_visible (h2 (.pct p) rfl) (h3 rf rfl)
      | cell d => cases hx; exact h2 _ rfl
      | px d => cases hx; exact h2 _ rfl
  | some s =>
    cases s with
    | cell d => cases hx; exact h1 _ rfl
    | px d => cases hx; exact h1 _ rfl
    | pct p =>
      cases hx
      have hp : Big p := h1 (.pct p) rfl
      refine settle_visible b ?_
      cases parent with
      | some pf => exact scale_visible hp (h2 pf rfl)
      | none =>
        cases region with
        | some rf => exact scale_visible hp (h3 rf rfl)
        | none =>
          simp only
          split
          · exact hp
          · exact scale_visible hp default_visible

theorem resolve_fs {own : Name → Specified} {l : List Name} (h : ∀ x ∈ l, ∀ f, (own x).fs = some f → Nonzero f) :
    ∀ f, (resolve own l).fs = some f → Nonzero f := by
  unfold resolve
  have : ∀ s : Specified, (∀ f, s.fs = some f → Nonzero f) → ∀ f, (l.foldl (fun s x => add s (own x)) s).fs = some f → Nonzero f := by
    induction l with
    | nil => exact fun s hs => hs
    | cons x l ih =>
      intro s hs
      rw [List.foldl_cons]
      refine ih (fun y hy => h y (by simp [hy])) _ ?_
      intro f hf
      simp only [add] at hf
      cases hsf : s.fs with
      | some f' => rw [hsf] at hf; cases hf; exact hs _ hsf
      | none => rw [hsf] at hf; exact h x (by simp) f hf
  exact this {} (by simp)

variable {hd : Head}

theorem SizedHead.resolved (h : SizedHead hd) {refs l : List Name} (hl : refStyles hd refs = .ok l) :
    ∀ f, (resolve hd.own l).fs = some f → Nonzero f := by
  apply resolve_fs
  intro x hx
  obtain ⟨p, hp, rfl⟩ := refStyles_known hl x hx
  exact h.own p hp

/-- A computed style whose font size, if there is one, is not zero. -/
def NonzeroC (c : Computed) : Prop := ∀ f, c.fs = some f → Nonzero f

theorem SizedHead.compute (h : SizedHead hd) {spec : Specified} (hs : ∀ f, spec.fs = some f → Nonzero f) {parent region : Option Computed}
    (hp : ∀ c, parent = some c → NonzeroC c) (hr : ∀ c, region = some c → NonzeroC c) (b : Bool) :
    NonzeroC (compute hd.geo spec parent region b) := by
  intro f hf
  refine fontSize_visible h.kh h.kv hs ?_ ?_ hf
  · intro f hf
    cases parent with
    | none => cases hf
    | some c => exact hp c rfl f hf
  · intro f hf
    cases region with
    | none => cases hf
    | some c => exact hr c rfl f hf

theorem SizedHead.regions (h : SizedHead hd) {infos : List RInfo} (hi : presentRegions hd hd.regions = .ok infos) :
    ∀ i ∈ infos, NonzeroC i.comp := by
  have hall := SegHead.presentRegions_ok hi
  have : ∀ rs (is : List RInfo), List.Forall₂ (fun r i => presentRegion hd r = .ok i) rs is → ∀ i ∈ is, NonzeroC i.comp := by
    intro rs is hf
    induction hf with
    | nil => simp
    | @cons r i rs is h1 _ ih =>
      intro j hj
      rcases List.mem_cons.1 hj with rfl | hj
      · unfold presentRegion at h1
        cases hl : refStyles hd r.refs with
        | error e => rw [hl] at h1; cases h1
        | ok l =>
          rw [hl] at h1
          cases h1
          refine h.compute ?_ (by simp) (by simp) false
          intro f hf
          exact h.resolved hl f hf
      · exact ih j hj
  exact this _ _ hall

/-- The region in force, if any, has a computed style of a visible size. -/
def NonzeroR (r : Option RInfo) : Prop := ∀ i, r = some i → NonzeroC i.comp

theorem setRegion_visible {infos : List RInfo} (hi : ∀ i ∈ infos, NonzeroC i.comp) {a : Att} {cur rg : Option RInfo} (hc : NonzeroR cur)
    (h : setRegion infos a cur = .ok rg) : NonzeroR rg := by
  unfold setRegion at h
  split at h
  · cases h; exact hc
  · split at h
    · cases h
    · rename_i i hf
      cases h
      intro j hj
      cases hj
      exact hi i (List.mem_of_find?_eq_some hf)

mutual
theorem SizedHead.present (h : SizedHead hd) {infos : List RInfo} (hi : ∀ i ∈ infos, NonzeroC i.comp) : ∀ (n : Node Att) (c : Style.Ctx)
    (parent : Option Computed) (r : Style.Ctx × Node PLab), NonzeroR c.region → (∀ p, parent = some p → NonzeroC p) →
    Style.present hd infos c parent n = .ok r → NonzeroR r.1.region ∧ ∀ x ∈ labelsOf r.2, NonzeroC x.comp
  | .text s, c, parent, r, hc, _, he => by
    rw [Style.present] at he; cases he
    exact ⟨hc, by simp [labelsOf]⟩
  | .br, c, parent, r, hc, _, he => by
    rw [Style.present] at he; cases he
    exact ⟨hc, by simp [labelsOf]⟩
  | .elem a kids, c, parent, r, hc, hp, he => by
    obtain ⟨rg, refd, q, h1, h2, h3, rfl⟩ := present_elem he
    have hrg := setRegion_visible hi hc h1
    have hx : NonzeroC (label hd a c.stack rg parent refd).comp := by
      refine h.compute (h.resolved h2) hp ?_ _
      intro c' hc'
      cases rg with
      | none => cases hc'
      | some i => cases hc'; exact hrg i rfl
    obtain ⟨k1, k2⟩ := h.presentL hi kids _ _ q hrg (by intro p hp'; cases hp'; exact hx) h3
    constructor
    · intro i hi'
      simp only [leave] at hi'
      split at hi'
      · cases hi'
      · exact k1 i hi'
    · intro x hxm
      rw [labelsOf] at hxm
      rcases List.mem_cons.1 hxm with rfl | hxm
      · exact hx
      · exact k2 x hxm
theorem SizedHead.presentL (h : SizedHead hd) {infos : List RInfo} (hi : ∀ i ∈ infos, NonzeroC i.comp) : ∀ (ks : List (Node Att)) (c : Style.Ctx)
    (parent : Option Computed) (r : Style.Ctx × List (Node PLab)), NonzeroR c.region → (∀ p, parent = some p → NonzeroC p) →
    Style.presentL hd infos c parent ks = .ok r → NonzeroR r.1.region ∧ ∀ x ∈ labelsOfL r.2, NonzeroC x.comp
  | [], c, parent, r, hc, _, he => by
    rw [Style.presentL] at he; cases he
    exact ⟨hc, by simp [labelsOfL]⟩
  | k :: ks, c, parent, r, hc, hp, he => by
    rw [Style.presentL] at he
    obtain ⟨r1, h1, he⟩ := Doc.bind_ok he
    obtain ⟨r2, h2, he⟩ := Doc.bind_ok he
    cases he
    obtain ⟨a1, a2⟩ := h.present hi k c parent r1 hc hp h1
    obtain ⟨b1, b2⟩ := h.presentL hi ks r1.1 parent r2 a1 hp h2
    refine ⟨b1, ?_⟩
    intro x hx
    rw [labelsOfL] at hx
    rcases List.mem_append.1 hx with hx | hx
    · exact a2 x hx
    · exact b2 x hx
end

/-- No validated element of a document whose styles set visible sizes has a font size of zero. -/
theorem SizedHead.presented (h : SizedHead hd) {body : Node Att} {infos : List RInfo} {doc : Node PLab} (hp : presentDoc hd body = .ok (infos, doc)) :
    ∀ anc e kids, Reach doc anc (.elem e kids) → NonzeroC e.comp := by
  obtain ⟨h1, c, h2⟩ := presentDoc_ok hp
  intro anc e kids hr
  exact (h.present (h.regions h1) body _ none _ (by intro i hi; cases hi) (by simp) h2).2 e
    ((SegHead.labels_of_reach hr).2 e (by simp [labelsOf]))

/-! ### Segments -/

theorem extract_sized {h s : HDoc} (hs : SizedHead h.head) {w : Win} {pre : Option Nat} (hx : h.extract w pre = .ok s) : SizedHead s.head := by
  obtain ⟨infos, n, _, ho⟩ := SegHead.extract_ok hx
  obtain ⟨_, e2, _, e4, _⟩ := SegHead.segmentOf_ok ho
  refine ⟨by rw [e4]; exact hs.kh, by rw [e4]; exact hs.kv, ?_⟩
  intro p _ f hf
  rw [e2, SegHead.copiedOwn] at hf
  split at hf
  · rename_i q hq
    exact hs.own q (List.mem_of_find?_eq_some hq) f hf
  · cases hf

theorem extract_regions {h s : HDoc} {w : Win} {pre : Option Nat} (hx : h.extract w pre = .ok s) :
    ∀ r ∈ s.head.regions, ∃ q ∈ h.head.regions, r.id = newName pre q.id := by
  obtain ⟨infos, n, _, ho⟩ := SegHead.extract_ok hx
  obtain ⟨_, _, e3, _⟩ := SegHead.segmentOf_ok ho
  intro r hr
  rw [e3, SegHead.segRegions] at hr
  obtain ⟨q, hq, rfl⟩ := List.mem_map.1 hr
  exact ⟨q, (List.mem_filter.1 hq).1, rfl⟩

theorem merged_sized {segs : List HDoc} {o : HDoc} (h : Merged segs o) (hne : segs ≠ []) (hs : ∀ s ∈ segs, SizedHead s.head) : SizedHead o.head := by
  obtain ⟨s0, l, rfl⟩ := List.exists_cons_of_ne_nil hne
  have hg := h.geo s0 (by simp)
  refine ⟨by rw [hg]; exact (hs s0 (by simp)).kh, by rw [hg]; exact (hs s0 (by simp)).kv, ?_⟩
  intro p hp f hf
  rw [h.sheet] at hp
  obtain ⟨sh, hsh, hp⟩ := List.mem_flatten.1 hp
  obtain ⟨s, hsm, rfl⟩ := List.mem_map.1 hsh
  rw [h.own s hsm p.1 (List.mem_map_of_mem hp)] at hf
  exact (hs s hsm).own p hp f hf

/-- A document that has been extracted and whose fonts and places are as they should be can be encoded. -/
theorem ready_encodes {m : Media} (hrd : m.rd.Accurate) (hz0 : 0 ≤ m.zero) (hz : m.base = .clock → m.zero % 1000 = 0)
    (pr : Rat → List Char) (res : Rat × Rat) (place : Name → List Char × List Char) {o : HDoc} (hr : SegReady m o.body)
    (hv : o.validate.isOk = true) (hs : SizedHead o.head)
    (hp : ∀ r ∈ o.head.regions, (Size.readOrigin (place r.id).1).isSome = true ∧ (Size.readExtent (place r.id).2).isSome = true) :
    (encodeH m pr res place o).isSome = true := by
  cases hval : o.validate with
  | error e => rw [hval] at hv; cases hv
  | ok r =>
    obtain ⟨infos, n⟩ := r
    have hdoc := presentDoc_of_validate hval
    obtain ⟨c, hc, _⟩ := ready_converted hrd hz0 hz (d := ⟨none, none, o.body⟩) hr
    obtain ⟨d, hd⟩ := C76_converts m pr o.head res place o.body infos (mapN Full.pres n) hdoc c hc hp (by
      intro anc e kids hre _ z hzz
      exact hs.presented hdoc anc e kids hre (.cell z) hzz)
    unfold encodeH
    rw [hval]
    simp only [hd]
    rfl

/-! ### Sequences and resequencers -/

/-- What the encoder asks of a held document beyond the rest: fonts of some size, and places for its regions that can be read. -/
def Fonted (place : Name → List Char × List Char) (h : HDoc) (num : Nat) : Prop :=
  SizedHead h.head ∧ ∀ r ∈ h.head.regions, (Size.readOrigin (place (newName (some num) r.id)).1).isSome = true ∧
    (Size.readExtent (place (newName (some num) r.id)).2).isSome = true

/-- **C107** (partial), a sequence: every window of every reachable sequence can be extracted, and what is extracted can be encoded.

Missing: what `C107_sequence_looks_alike_partial` asks of the documents; their fonts must not have a size of zero, and the places of their
regions must be ones that can be read. -/
theorem C107_sequence_encodes_partial {cfg : Seq.Cfg} {agid : Option String} {s : Seq.State} {log : List Seq.Doc}
    (h : Seq.Reach cfg agid s log) (docs : Seq.Doc → HDoc) (lo hi : Option Int) (top : Int)
    (hlo : ∀ b, lo = some b → b % 1000 = 0) (hhi : ∀ e, hi = some e → e ≤ top ∧ e % 1000 = 0)
    (hlh : ∀ b e, lo = some b → hi = some e → b ≤ e)
    (hopen : hi = none → ∀ d ∈ s.docs, ∃ e, Seq.resolvedEnd s d = some (some e) ∧ e ≤ top)
    (hheld : ∀ d ∈ s.docs, Held (docs d) d top)
    (hgeo : ∀ d ∈ s.docs, ∀ d' ∈ s.docs, (docs d).head.geo = (docs d').head.geo)
    (hf : ∀ d ∈ s.docs, flat (docs d).body = true ∧ Flat (docs d).head)
    (m : Media) (hrd : m.rd.Accurate) (hz0 : 0 ≤ m.zero) (hms : m.base = .clock → m.zero % 1000 = 0)
    (hbase : ∀ d ∈ s.docs, (docs d).base = m.base) (hz : m.base = .clock → ∃ b, lo = some b ∧ m.zero ≤ b)
    (pr : Rat → List Char) (res : Rat × Rat) (place : Name → List Char × List Char)
    (hfont : ∀ d ∈ s.docs, Fonted place (docs d) d.num) :
    ∃ out, extractFull s docs lo hi = some out ∧ ∀ o, out = some o → (encodeH m pr res place o).isSome = true := by
  obtain ⟨out, hout, hval, _⟩ := SegHead.C59_resegmented_looks_alike_partial h docs lo hi top hlo hhi hlh hopen hheld hgeo
  refine ⟨out, hout, ?_⟩
  intro o ho
  have hv := hval o ho
  rw [ho] at hout
  obtain ⟨segs, hne, hm, hsegs⟩ := extracted_merged h docs lo hi top hlo hhi hlh hopen hheld hgeo hf m hbase hz hout
  refine ready_encodes hrd hz0 hms pr res place (merged_ready hm (fun s' hs' => (hsegs s' hs').1.1)) hv (merged_sized hm hne ?_) ?_
  · intro s' hs'
    obtain ⟨_, d, hd, w, hx⟩ := hsegs s' hs'
    exact extract_sized (hfont d hd).1 hx
  · intro r hr
    rw [hm.regions] at hr
    obtain ⟨rs, hrs, hr⟩ := List.mem_flatten.1 hr
    obtain ⟨s', hs', rfl⟩ := List.mem_map.1 hrs
    obtain ⟨_, d, hd, w, hx⟩ := hsegs s' hs'
    obtain ⟨q, hq, e⟩ := extract_regions hx r hr
    rw [e]
    exact (hfont d hd).2 q hq

theorem run_bounds {β : Type} {ex : Seq.State → Int → Int → Option β × Seq.State} {start len : Int} (hl : 0 < len) (evs : List REv)
    (segs : List (RSeg β)) (hsegs : segs = (runR ex len { lastEnd := start } evs).2) :
    ∀ g ∈ segs, start ≤ g.lo ∧ g.hi ≤ start + segs.length * len := by
  have hp := C39_numbers_and_windows ex len { lastEnd := start } evs
  simp only [← hsegs] at hp
  intro g hg
  obtain ⟨i, hi, hgi⟩ := List.mem_iff_getElem.mp hg
  have hm : (segs.map (fun g => (g.num, g.lo, g.hi)))[i]'(by simpa using hi) =
      ((List.range segs.length).map (plan 1 start len))[i]'(by simpa using hi) := by
    simp only [hp]
  simp only [List.getElem_map, List.getElem_range, plan, Prod.mk.injEq] at hm
  rw [← hgi, hm.2.1, hm.2.2]
  have e1 : 0 ≤ (i : Int) * len := Int.mul_nonneg (by omega) (by omega)
  have e2 : ((i : Int) + 1) * len ≤ segs.length * len := Int.mul_le_mul_of_nonneg_right (by omega) (by omega)
  omega

/-- The conditions on the documents held in the course of a run. -/
def RunDocs (docs : Seq.Doc → HDoc) (discard : Bool) (start len : Int) (evs : List REv) (m : Media)
    (place : Name → List Char × List Char) (top : Int) : Prop :=
  ∀ k q, (runR (extractWhole docs discard) len { lastEnd := start } (evs.take k)).1.cons.seq = some (some q) →
    (∀ d ∈ q.docs, Held (docs d) d top ∧ flat (docs d).body = true ∧ Flat (docs d).head ∧ (docs d).base = m.base ∧ Fonted place (docs d) d.num) ∧
    ∀ d ∈ q.docs, ∀ d' ∈ q.docs, (docs d).head.geo = (docs d').head.geo

/-- **C107** (partial), a resequencer: every segment it emits can be encoded.

Missing: see `RunDocs`. -/
theorem C107_segments_encode_partial {docs : Seq.Doc → HDoc} {discard : Bool} {start len : Int} (hl : 0 < len)
    (hms : start % 1000 = 0 ∧ len % 1000 = 0) (evs : List REv)
    (hrun : ∀ k, ∃ log, RReach (extractWhole docs discard) start len
      (runR (extractWhole docs discard) len { lastEnd := start } (evs.take k)).1 log)
    (m : Media) (hrd : m.rd.Accurate) (hz0 : 0 ≤ m.zero) (hzms : m.base = .clock → m.zero % 1000 = 0)
    (hz : m.base = .clock → m.zero ≤ start) (pr : Rat → List Char) (res : Rat × Rat)
    (place : Name → List Char × List Char) (segs : List (RSeg (Option HDoc)))
    (hsegs : segs = (runR (extractWhole docs discard) len { lastEnd := start } evs).2)
    (hdocs : RunDocs docs discard start len evs m place (start + segs.length * len)) :
    ∀ g ∈ segs, ∀ o, g.doc = some o → (encodeH m pr res place o).isSome = true := by
  intro g hg o ho
  have hb := run_bounds hl evs segs hsegs g hg
  obtain ⟨k, _, htick⟩ := runR_emits (extractWhole docs discard) len evs { lastEnd := start } g (by rw [← hsegs]; exact hg)
  obtain ⟨log, hr⟩ := hrun k
  have hdk := hdocs k
  generalize (runR (extractWhole docs discard) len { lastEnd := start } (evs.take k)).1 = st at *
  obtain ⟨q, hq⟩ := tick_seq htick
  obtain ⟨o', ho', hgo⟩ := extractWhole_emits hq htick
  have hdoc : g.doc = o' := by rw [hgo]
  have hlo : g.lo = st.lastEnd := by rw [hgo]
  have hhi : g.hi = st.lastEnd + len := by rw [hgo]
  obtain ⟨hd, hgeo⟩ := hdk q hq
  obtain ⟨n, hn⟩ := hr.window
  have hnl : 0 ≤ (n : Int) * len := Int.mul_nonneg (by omega) (by omega)
  have hmod : ((n : Int) * len) % 1000 = 0 := by
    rw [Int.mul_emod, hms.2]; simp
  obtain ⟨cfg, agid, l, hreach, _⟩ := RReach.seqOf (extractWhole_discards docs discard) (by omega) hr q hq
  obtain ⟨out, e1, e2⟩ := C107_sequence_encodes_partial hreach docs (some st.lastEnd) (some (st.lastEnd + len)) (st.lastEnd + len)
    (by intro b hb; injection hb with hb; omega) (by intro e he; injection he with he; omega)
    (by intro b e hb he; injection hb with hb; injection he with he; omega) (by intro hc; simp at hc)
    (fun d hdm => held_mono (hd d hdm).1 (by omega)) hgeo (fun d hdm => ⟨(hd d hdm).2.1, (hd d hdm).2.2.1⟩) m hrd hz0 hzms
    (fun d hdm => (hd d hdm).2.2.2.1) (fun hc => ⟨_, rfl, by have := hz hc; omega⟩) pr res place (fun d hdm => (hd d hdm).2.2.2.2)
  rw [ho'] at e1
  cases e1
  exact e2 o (by rw [← hdoc]; exact ho)

/-- **C107** (partial), a resequencer: `C107_whole_run_partial` without the condition that all segments can be encoded: at every media time
that the segments emitted so far cover, the EBU-TT-D documents made of them, played together, show exactly the pieces of content that
the document shows that was active at the corresponding instant when the segment with that instant was extracted, in the same order and
looking the same, and nothing if none was active; at other media times they show nothing.

Missing: see `RunDocs`. -/
theorem C107_whole_run_sure_partial {docs : Seq.Doc → HDoc} {discard : Bool} {start len : Int} (hl : 0 < len)
    (hms : start % 1000 = 0 ∧ len % 1000 = 0) (evs : List REv)
    (hrun : ∀ k, ∃ log, RReach (extractWhole docs discard) start len
      (runR (extractWhole docs discard) len { lastEnd := start } (evs.take k)).1 log)
    (m : Media) (hrd : m.rd.Accurate) (hz0 : 0 ≤ m.zero) (hzms : m.base = .clock → m.zero % 1000 = 0)
    (hz : m.base = .clock → m.zero ≤ start) (pr : Rat → List Char) (hpr : Function.Injective pr) (res : Rat × Rat)
    (place : Name → List Char × List Char) (segs : List (RSeg (Option HDoc)))
    (hsegs : segs = (runR (extractWhole docs discard) len { lastEnd := start } evs).2)
    (hdocs : RunDocs docs discard start len evs m place (start + segs.length * len)) (u : Int) (hu : 0 ≤ u) :
    (start ≤ u + m.shift ∧ u + m.shift < start + segs.length * len →
      ∃ k st q, evs[k]? = some .tick ∧ st = (runR (extractWhole docs discard) len { lastEnd := start } (evs.take k)).1 ∧
        st.lastEnd ≤ u + m.shift ∧ u + m.shift < st.lastEnd + len ∧ st.cons.seq = some (some q) ∧
        (∀ a, Seq.ActiveAt q a (u + m.shift) → List.Forall₂ (SameShown (some a.num)) (piecesOf (docs a) (u + m.shift))
          ((segs.map (fun g => segPieces m pr res place g u)).flatten)) ∧
        ((∀ a, ¬ Seq.ActiveAt q a (u + m.shift)) → (segs.map (fun g => segPieces m pr res place g u)).flatten = [])) ∧
    (¬(start ≤ u + m.shift ∧ u + m.shift < start + segs.length * len) →
      (segs.map (fun g => segPieces m pr res place g u)).flatten = []) :=
  C107_whole_run_partial hl hms evs hrun m hrd hz0 hzms hz pr hpr res place segs hsegs
    (fun k q hq => ⟨fun d hd => ⟨((hdocs k q hq).1 d hd).1, ((hdocs k q hq).1 d hd).2.1, ((hdocs k q hq).1 d hd).2.2.1,
      ((hdocs k q hq).1 d hd).2.2.2.1⟩, (hdocs k q hq).2⟩)
    (C107_segments_encode_partial hl hms evs hrun m hrd hz0 hzms hz pr res place segs hsegs hdocs) u hu

/-- **C107** (partial), a resequencer: if nothing is discarded, no tick passes without a segment once there is a sequence, so that the windows the segments cover grow
by one length with each tick.

Missing: see `RunDocs`; with discarding, see `C11_second_discard_can_fail` and C99. -/
theorem C107_every_tick_emits_partial {docs : Seq.Doc → HDoc} {start len : Int} (hl : 0 < len)
    (hms : start % 1000 = 0 ∧ len % 1000 = 0) (evs : List REv)
    (hrun : ∀ k, ∃ log, RReach (extractWhole docs false) start len
      (runR (extractWhole docs false) len { lastEnd := start } (evs.take k)).1 log)
    (m : Media) (place : Name → List Char × List Char) (top : Int) (hdocs : RunDocs docs false start len evs m place top) (k : Nat)
    (st : RState) (hst : st = (runR (extractWhole docs false) len { lastEnd := start } (evs.take k)).1) (q : Seq.State)
    (hq : st.cons.seq = some (some q)) (htop : st.lastEnd + len ≤ top) :
    ∃ g, (reseq (extractWhole docs false) len st .tick).2 = some g ∧ g.lo = st.lastEnd ∧ g.hi = st.lastEnd + len := by
  obtain ⟨log, hr⟩ := hrun k
  have hdk := hdocs k
  rw [← hst] at hr hdk
  obtain ⟨hd, hgeo⟩ := hdk q hq
  obtain ⟨n, hn⟩ := hr.window
  have hnl : 0 ≤ (n : Int) * len := Int.mul_nonneg (by omega) (by omega)
  have hmod : ((n : Int) * len) % 1000 = 0 := by
    rw [Int.mul_emod, hms.2]; simp
  obtain ⟨cfg, agid, l, hreach, _⟩ := RReach.seqOf (extractWhole_discards docs false) (by omega) hr q hq
  obtain ⟨out, e1, _⟩ := SegHead.C59_resegmented_looks_alike_partial hreach docs (some st.lastEnd) (some (st.lastEnd + len)) (st.lastEnd + len)
    (by intro b hb; injection hb with hb; omega) (by intro e he; injection he with he; omega)
    (by intro b e hb he; injection hb with hb; injection he with he; omega) (by intro hc; simp at hc)
    (fun d hdm => held_mono (hd d hdm).1 htop) hgeo
  unfold reseq extractWhole
  rw [hq]
  simp only [e1, Bool.false_eq_true, if_false]
  exact ⟨_, rfl, rfl, rfl⟩

/-- **C108** (partial), a resequencer, a deduplicator and an encoder in a row: `C108_whole_run_partial` without the condition that all segments
can be encoded.

Missing: see `RunDocs`, and what `C108_shows_the_same_partial` asks of the segments. -/
theorem C108_whole_run_sure_partial {docs : Seq.Doc → HDoc} {discard : Bool} {start len : Int} (hl : 0 < len)
    (hms : start % 1000 = 0 ∧ len % 1000 = 0) (evs : List REv)
    (hrun : ∀ k, ∃ log, RReach (extractWhole docs discard) start len
      (runR (extractWhole docs discard) len { lastEnd := start } (evs.take k)).1 log)
    (m : Media) (hrd : m.rd.Accurate) (hz0 : 0 ≤ m.zero) (hzms : m.base = .clock → m.zero % 1000 = 0)
    (hz : m.base = .clock → m.zero ≤ start) (pr : Rat → List Char) (hpr : Function.Injective pr) (res : Rat × Rat)
    (place : Name → List Char × List Char) (segs : List (RSeg (Option HDoc)))
    (hsegs : segs = (runR (extractWhole docs discard) len { lastEnd := start } evs).2)
    (hdocs : RunDocs docs discard start len evs m place (start + segs.length * len))
    (h : List Char → Int) (order : List (Int × DElem) → List (Int × DElem)) (ho : ∀ l, (order l).Perm l)
    (mean : List (Option Val) → Specified) (pad : List (Option Val) → Option Val) (g : Geometry)
    (spot : List (Option Val) → List Char × List Char) (desc : HDoc → Whole)
    (hdesc : ∀ s ∈ segs, ∀ o, s.doc = some o → Describes mean pad g (desc o) o ∧ Dedup.Clean h (desc o).seen ∧ NoClash o.head ∧
      ∀ r ∈ (desc o).regions, place r.id.toList = spot r.vals) (u : Int) (hu : 0 ≤ u) :
    (start ≤ u + m.shift ∧ u + m.shift < start + segs.length * len →
      ∃ k st q, evs[k]? = some .tick ∧ st = (runR (extractWhole docs discard) len { lastEnd := start } (evs.take k)).1 ∧
        st.lastEnd ≤ u + m.shift ∧ u + m.shift < st.lastEnd + len ∧ st.cons.seq = some (some q) ∧
        (∀ a, Seq.ActiveAt q a (u + m.shift) →
          List.Forall₂ (fun p q' => ∃ s ∈ segs, ∃ o d d' q, s.doc = some o ∧ encodeH m pr res place o = some d ∧
              encodeDedup h order mean pad g spot m pr res (desc o) o = some d' ∧ SameShown (some a.num) p q ∧ SamePiece d d' q q')
            (piecesOf (docs a) (u + m.shift)) ((segs.map (fun s => segPiecesD h order mean pad g spot m pr res desc s u)).flatten)) ∧
        ((∀ a, ¬ Seq.ActiveAt q a (u + m.shift)) → (segs.map (fun s => segPiecesD h order mean pad g spot m pr res desc s u)).flatten = [])) ∧
    (¬(start ≤ u + m.shift ∧ u + m.shift < start + segs.length * len) →
      (segs.map (fun s => segPiecesD h order mean pad g spot m pr res desc s u)).flatten = []) :=
  C108_whole_run_partial hl hms evs hrun m hrd hz0 hzms hz pr hpr res place segs hsegs
    (fun k q hq => ⟨fun d hd => ⟨((hdocs k q hq).1 d hd).1, ((hdocs k q hq).1 d hd).2.1, ((hdocs k q hq).1 d hd).2.2.1,
      ((hdocs k q hq).1 d hd).2.2.2.1⟩, (hdocs k q hq).2⟩)
    (C107_segments_encode_partial hl hms evs hrun m hrd hz0 hzms hz pr res place segs hsegs hdocs)
    h order ho mean pad g spot desc hdesc u hu

/-! ### Example: `exDocs`, `exEvents` -/

/-- A decidable form of `SizedHead`. -/
def sizedCheck (hd : Head) : Bool :=
  decide (hd.geo.kh ≠ 0) && decide (hd.geo.kv ≠ 0) && hd.sheet.all (fun p => (hd.own p.1).fs.all (fun f => decide (Nonzero f)))

theorem sized_of_check {hd : Head} (h : sizedCheck hd = true) : SizedHead hd := by
  simp only [sizedCheck, Bool.and_eq_true, decide_eq_true_eq, List.all_eq_true] at h
  refine ⟨h.1.1, h.1.2, ?_⟩
  intro p hp f hf
  have := h.2 p hp
  rw [hf] at this
  simpa using this

/-- The documents of the example meet `RunDocs`; what else the theorems ask for is shown beside `C107_whole_run_partial`. -/
example : RunDocs SegHead.exDocs true 1000000 5000000 exEvents exMediaM exPlace 11000000 := by
  have hall : ∀ k, ((runR (extractWhole SegHead.exDocs true) 5000000 { lastEnd := 1000000 } (exEvents.take k)).1.cons.seq.getD none).all
      (fun q => q.docs.all (fun d => Doc.exHeld.contains d)) = true := by
    intro k
    match k with
    | 0 => decide +kernel
    | 1 => decide +kernel
    | 2 => decide +kernel
    | 3 => decide +kernel
    | n + 4 =>
      have : exEvents.take (n + 4) = exEvents := List.take_of_length_le (by simp [exEvents])
      rw [this]
      decide +kernel
  intro k q hq
  have hm : ∀ d ∈ q.docs, d ∈ Doc.exHeld := by
    intro d hd
    have := hall k
    rw [hq] at this
    simp only [Option.getD_some, Option.all_some, List.all_eq_true] at this
    simpa using this d hd
  refine ⟨fun d hd => ?_, fun d hd d' hd' => by rw [(exWhole_facts (hm d hd)).2.2.2.2, (exWhole_facts (hm d' hd')).2.2.2.2]⟩
  obtain ⟨a, b, c, e, _⟩ := exWhole_facts (hm d hd)
  refine ⟨held_mono a (by decide), b, c, e, ?_⟩
  have hd' := hm d hd
  simp only [Doc.exHeld, List.mem_cons, List.not_mem_nil, or_false] at hd'
  have hplace : (Size.readOrigin "4c 10c".toList).isSome = true ∧ (Size.readExtent "32c 5c".toList).isSome = true := by decide +kernel
  rcases hd' with rfl | rfl
  · exact ⟨sized_of_check (by decide +kernel), fun r _ => hplace⟩
  · exact ⟨sized_of_check (by decide +kernel), fun r _ => hplace⟩

end Verif.Convert
