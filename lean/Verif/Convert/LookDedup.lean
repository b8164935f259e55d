import Verif.Convert.DedupChainProps
import Mathlib.Data.List.Nodup
import Verif.Convert.LookFrame
import Verif.Convert.LookRunProps

/-! A deduplicator before the encoder: what a viewer sees at each instant.  Specification and lemmas for C108. -/
namespace Verif.Convert

open Verif.Doc hiding Name
open Verif.Style Verif.Time
open Verif.SegHead (mapN mapNL HDoc Full Piece piecesOf)
open Verif.Dedup (DElem DUse Ref found look regionLook useLook keepFirst)

/-! ### Specification -/

/-- The document that has the head and content described by `w`, and everything else from `o` (the deduplicator changes nothing else,
node/deduplicator.py:51-77). -/
def withWhole (mean : List (Option Val) → Specified) (pad : List (Option Val) → Option Val) (g : Geometry) (w : Whole) (o : HDoc) : HDoc :=
  { o with head := w.head mean pad g, body := w.body }

/-- `w` describes the head and the content of `o`: values of attributes are as written, `mean` and `pad` say what they set. -/
structure Describes (mean : List (Option Val) → Specified) (pad : List (Option Val) → Option Val) (g : Geometry) (w : Whole) (o : HDoc) : Prop where
  head : HeadAgree o.head (w.head mean pad g)
  body : w.body = o.body

/-- `process_document` of the deduplicator and then of the encoder (node/deduplicator.py:35-49, node/encoder.py:35-48) on a document
described by `w`; `spot` finds origin and extent among the values of a region. -/
def encodeDedup (h : List Char → Int) (order : List (Int × DElem) → List (Int × DElem)) (mean : List (Option Val) → Specified)
    (pad : List (Option Val) → Option Val) (g : Geometry) (spot : List (Option Val) → List Char × List Char)
    (m : Media) (pr : Rat → List Char) (res : Rat × Rat) (w : Whole) (o : HDoc) : Option DDoc :=
  (dedupWhole h order w).bind (fun w' => encodeH m pr res (w'.place spot) (withWhole mean pad g w' o))

/-- The region of the name given. -/
def regionOf (d : DDoc) (n : Option Name) : Option DRegion := n.bind (fun x => d.regions.find? (fun q => decide (q.id = x)))

/-- A piece of the EBU-TT-D document `d` and one of `d'` look the same: the same content, inherited values, background, bidi setting and
height of the font, and regions with the same padding, origin, extent and styling (they may be named differently). -/
structure SamePiece (d d' : DDoc) (q q' : DPiece) : Prop where
  content : q'.content = q.content
  value : ∀ x, q'.value x = q.value x
  background : q'.background = q.background
  bidi : q'.bidi = q.bidi
  height : q'.height = q.height
  region : ∀ (α : Type) (f : Specified → Option α), seenRegion d' f (regionOf d' q'.region) = seenRegion d f (regionOf d q.region)

/-! ### Lemmas -/

mutual
theorem plain_eq : ∀ n : Node Att, plain n = mapN noRefs n
  | .text _ => rfl
  | .br => rfl
  | .elem a ks => by rw [plain, mapN, plainL_eq ks]; rfl
theorem plainL_eq : ∀ ks : List (Node Att), plainL ks = mapNL noRefs ks
  | [] => rfl
  | k :: ks => by rw [plainL, mapNL, plain_eq k, plainL_eq ks]
end

theorem on_noRefs : ∀ (l : List Att) (u : Int), on u (l.map noRefs) = on u l
  | [], _ => rfl
  | a :: l, u => by rw [List.map_cons, on, on, on_noRefs l]; rfl

theorem regionOf_dRegion (d : DDoc) (l : List Att) : regionOf d ((dRegion d l).map (·.id)) = dRegion d l := by
  unfold regionOf dRegion
  cases nearest l with
  | none => rfl
  | some r =>
    simp only [Option.bind_some]
    cases h : d.regions.find? (fun q => decide (q.id = r)) with
    | none => rfl
    | some q =>
      have := List.find?_some h
      simp only [decide_eq_true_eq] at this
      simp only [Option.map_some, Option.bind_some]
      rw [this, h]

theorem getLast_map {α β : Type} (f : α → β) (l : List α) : (l.map f).getLast? = l.getLast?.map f := by
  rw [List.getLast?_map]

/-- Leaves at the same position of two documents that look alike. -/
theorem samePiece_of {d d' : DDoc} {l l' : List Att × List Item} (hc : l'.2 = l.2) (hl : SameLook d d' l.1 l'.1) :
    SamePiece d d' (dPiece d l) (dPiece d' l') := by
  obtain ⟨h1, h2, h3, h4⟩ := hl
  have hlast : ∀ (α : Type) (f : Specified → Option α), (l'.1.getLast?).bind (fun a => dGives d' f a.style) =
      (l.1.getLast?).bind (fun a => dGives d f a.style) := by
    intro α f
    have := congrArg List.getLast? (h1 α f)
    rw [List.getLast?_map, List.getLast?_map] at this
    cases e : l.1.getLast? <;> cases e' : l'.1.getLast? <;> rw [e, e'] at this <;> simp at this
    · rfl
    · simpa using this
  refine ⟨hc, h2, ?_, ?_, ?_, ?_⟩
  · show Option.getD _ _ = Option.getD _ _
    rw [hlast]
  · show Option.getD _ _ = Option.getD _ _
    rw [hlast]
  · show (dSize d' l'.1).2 = (dSize d l.1).2
    rw [h3]
  · intro α f
    show seenRegion d' f (regionOf d' ((dRegion d' l'.1).map (·.id))) = seenRegion d f (regionOf d ((dRegion d l.1).map (·.id)))
    rw [regionOf_dRegion, regionOf_dRegion, h4]

/-- Two EBU-TT-D documents with the same elements, times and text that look alike element by element show the same at every media time. -/
theorem alike_pieces {d d' : DDoc} (hp : d'.body.map plain = d.body.map plain)
    (hl : ∀ out out', d.body = some out → d'.body = some out' → ∀ p anc a kids anc' a' kids', pick out p = some (anc, .elem a kids) →
      pick out' p = some (anc', .elem a' kids') → SameLook d d' (anc ++ [a]) (anc' ++ [a'])) (u : Int) :
    List.Forall₂ (SamePiece d d') (dPiecesAt d u) (dPiecesAt d' u) := by
  unfold dPiecesAt
  cases hb : d.body with
  | none =>
    cases hb' : d'.body with
    | none => exact .nil
    | some out' => rw [hb, hb'] at hp; cases hp
  | some out =>
    cases hb' : d'.body with
    | none => rw [hb, hb'] at hp; cases hp
    | some out' =>
      rw [hb, hb', Option.map_some, Option.map_some, Option.some.injEq, plain_eq, plain_eq] at hp
      have h1 : (leafPos Att.kind out).map (fun l => (l.1, l.2.1.map noRefs, l.2.2)) =
          (leafPos Att.kind out').map (fun l => (l.1, l.2.1.map noRefs, l.2.2)) := by
        have e1 := leafPos_mapN noRefs Att.kind out
        have e2 := leafPos_mapN noRefs Att.kind out'
        rw [hp, e1] at e2
        exact e2
      have h2 := forall₂_mem (map_eq_forall₂ h1)
      simp only [Option.elim_some]
      rw [pathLeaves_pos, pathLeaves_pos, List.filter_map, List.filter_map, List.map_map, List.map_map]
      refine filter_forall₂ (R := fun (l l' : List Nat × List Att × List Item) =>
        ((l.1, l.2.1.map noRefs, l.2.2) = (l'.1, l'.2.1.map noRefs, l'.2.2)) ∧ l ∈ leafPos Att.kind out ∧ l' ∈ leafPos Att.kind out') ?_ ?_ h2
      · rintro l l' ⟨he, -, -⟩
        simp only [Prod.mk.injEq] at he
        simp only [Function.comp]
        rw [← on_noRefs l.2.1, he.2.1, on_noRefs]
      · rintro l l' ⟨he, hm, hm'⟩
        simp only [Prod.mk.injEq] at he
        obtain ⟨anc, x, kids, e1, e2, _⟩ := leafPos_pick Att.kind out l hm
        obtain ⟨anc', x', kids', f1, f2, _⟩ := leafPos_pick Att.kind out' l' hm'
        rw [← he.1] at f1
        refine samePiece_of he.2.2.symm ?_
        rw [e2, f2]
        exact hl out out' hb hb' _ _ _ _ _ _ _ e1 f1

mutual
theorem idsOf_twin {w w' : Whole} : ∀ {n n' : Node Att}, Twin w w' n n' →
    idsOf (fun a : Att => if a.kind = .body then none else a.id) n' = idsOf (fun a : Att => if a.kind = .body then none else a.id) n
  | .text _, .text _, _ => rfl
  | .br, .br, _ => rfl
  | .text _, .br, h => by simp [Twin] at h
  | .text _, .elem _ _, h => by simp [Twin] at h
  | .br, .text _, h => by simp [Twin] at h
  | .br, .elem _ _, h => by simp [Twin] at h
  | .elem _ _, .text _, h => by simp [Twin] at h
  | .elem _ _, .br, h => by simp [Twin] at h
  | .elem a ks, .elem b ls, h => by
    rw [Twin] at h
    rw [idsOf, idsOf, idsOfL_twin h.2.2.2, h.1.1, h.1.2.1]
theorem idsOfL_twin {w w' : Whole} : ∀ {ks ls : List (Node Att)}, TwinL w w' ks ls →
    idsOfL (fun a : Att => if a.kind = .body then none else a.id) ls = idsOfL (fun a : Att => if a.kind = .body then none else a.id) ks
  | [], [], _ => rfl
  | [], _ :: _, h => by simp [TwinL] at h
  | _ :: _, [], h => by simp [TwinL] at h
  | k :: ks, l :: ls, h => by
    rw [TwinL] at h
    rw [idsOfL, idsOfL, idsOf_twin h.1, idsOfL_twin h.2]
end

theorem nodup_of_inj {α β γ : Type} {f : α → β} {k : α → γ} {l : List α} (hn : (l.map k).Nodup) (hi : ∀ a ∈ l, ∀ b ∈ l, f a = f b → a = b) :
    (l.map f).Nodup := (List.Nodup.of_map _ hn).map_on hi

/-- The identifiers stay unique. -/
theorem dedup_ids {h : List Char → Int} {order : List (Int × DElem) → List (Int × DElem)} (ho : ∀ l, (order l).Perm l) {w w' : Whole}
    (hc : Dedup.Clean h w.seen) (hw : dedupWhole h order w = some w') (htw : Twin w w' w.body w'.body)
    (mean : List (Option Val) → Specified) (pad : List (Option Val) → Option Val) (g : Geometry) (o : HDoc)
    (hn : (withWhole mean pad g w o).ids.Nodup) : (withWhole mean pad g w' o).ids.Nodup := by
  unfold dedupWhole at hw
  rw [Option.map_eq_some_iff] at hw
  obtain ⟨d', hd, rfl⟩ := hw
  obtain ⟨d1, hd1, ⟨s1, s2, _⟩, ⟨r1, _⟩, _⟩ := Dedup.C42_appearance_kept_partial h order ho w.seen hc
  rw [hd] at hd1
  cases hd1
  obtain ⟨f, hf⟩ := dedup_origin hc ho hd
  have hids := hc.ids
  rw [List.map_append] at hids
  obtain ⟨nS, nR, _⟩ := List.nodup_append.mp hids
  have toL : ∀ {a b : String}, a.toList = b.toList → a = b := fun e => String.toList_inj.1 e
  simp only [HDoc.ids, withWhole, Whole.head, List.map_map] at hn ⊢
  rw [idsOf_twin htw]
  rw [List.nodup_append] at hn
  obtain ⟨hn1, hn2, hn3⟩ := hn
  rw [List.nodup_append] at hn1
  obtain ⟨_, _, hn4⟩ := hn1
  have memS : ∀ x, x ∈ d'.styles.map ((fun p : Name × List Name => p.1) ∘ fun s => (s.id.toList, s.refs.map nameOf)) →
      x ∈ w.styles.map ((fun p : Name × List Name => p.1) ∘ fun s => (s.id.toList, s.refs.map nameOf)) := by
    intro x hx
    obtain ⟨s, hs, rfl⟩ := List.mem_map.1 hx
    exact List.mem_map.2 ⟨s, s1 s hs, rfl⟩
  have memR : ∀ x, x ∈ d'.regions.map ((fun r : RegionDef => r.id) ∘ fun r => { id := r.id.toList, refs := r.refs.map nameOf, padding := pad r.vals }) →
      x ∈ w.regions.map ((fun r : RegionDef => r.id) ∘ fun r => { id := r.id.toList, refs := r.refs.map nameOf, padding := pad r.vals }) := by
    intro x hx
    obtain ⟨r, hr, rfl⟩ := List.mem_map.1 hx
    obtain ⟨e, he, hid, _⟩ := hf r hr
    refine List.mem_map.2 ⟨e, he, ?_⟩
    show e.id.toList = r.id.toList
    rw [hid]
  rw [List.nodup_append]
  refine ⟨?_, hn2, ?_⟩
  · rw [List.nodup_append]
    refine ⟨?_, ?_, ?_⟩
    · refine nodup_of_inj s2 ?_
      intro a ha b hb hab
      exact nodup_id nS a (s1 a ha) b (s1 b hb) (toL hab)
    · refine nodup_of_inj r1 ?_
      intro e he e' he' hid
      obtain ⟨a, ha, a1, _, a2⟩ := hf e he
      obtain ⟨b, hb, b1, _, b2⟩ := hf e' he'
      have : a = b := nodup_id (clean_regions hc) a ha b hb (by rw [← a1, ← b1]; exact toL hid)
      subst this
      exact Option.some.inj (a2.symm.trans b2)
    · intro x hx y hy
      exact hn4 x (memS x hx) y (memR y hy)
  · intro x hx y hy
    refine hn3 x ?_ y hy
    rw [List.mem_append] at hx ⊢
    exact hx.imp (memS x) (memR x)

theorem validate_of_present {o : HDoc} {infos : List RInfo} {doc : Node PLab} (hn : o.ids.Nodup) (hp : presentDoc o.head o.body = .ok (infos, doc)) :
    ∃ n, o.validate = .ok (infos, n) ∧ mapN Full.pres n = doc := by
  obtain ⟨hr, c, hpr⟩ := presentDoc_ok hp
  obtain ⟨n, hv⟩ := SegHead.validate_of hn hr hpr
  refine ⟨n, hv, ?_⟩
  have := presentDoc_of_validate hv
  rw [hp] at this
  cases this
  rfl

end Verif.Convert
