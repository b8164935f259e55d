import Verif.SegHead.Lemmas

/-!
# What a segment copies

Lemmas about the parts of `segmentOf`.
-/
namespace Verif.SegHead

open Verif.Doc (Node Att Kind Lab Comp Win Env SErr TErr Reach bind_ok)
open Verif.Style (Head PLab RInfo RegionDef PErr Name Sheet Specified Computed Refers refStyles setRegion ownRegion present presentL
  presentRegion presentRegions leave label)

mutual
/-- `m` is the copy of `c` up to times. -/
def Copied (v : Env) : Node Full → Node Att → Prop
  | .text s, .text t => s = t
  | .br, .br => True
  | .elem x ks, .elem a ms => a.kind = x.kind ∧ a.id = Doc.copyId v x.att ∧ Doc.copyRegion v (ownRegion x.att) = .ok a.region ∧
      Doc.copyRefs v x.att.style = .ok a.style ∧ CopiedL v ks ms
  | _, _ => False
def CopiedL (v : Env) : List (Node Full) → List (Node Att) → Prop
  | [], [] => True
  | k :: ks, m :: ms => Copied v k m ∧ CopiedL v ks ms
  | _, _ => False
end

theorem copiedL_append {v : Env} : ∀ {a c : List (Node Full)} {b d : List (Node Att)}, CopiedL v a b → CopiedL v c d →
    CopiedL v (a ++ c) (b ++ d)
  | [], c, [], d, _, h => h
  | k :: ks, c, m :: ms, d, h, h' => by
    rw [CopiedL] at h
    rw [List.cons_append, List.cons_append, CopiedL]
    exact ⟨h.1, copiedL_append h.2 h'⟩
  | [], c, m :: ms, d, h, _ => by simp [CopiedL] at h
  | k :: ks, c, [], d, h, _ => by simp [CopiedL] at h

theorem copied_hasKid {v : Env} (kd : Kind) : ∀ {ks : List (Node Full)} {ms : List (Node Att)}, CopiedL v ks ms →
    Doc.hasKid kd ms = Doc.hasKid kd (mapNL Full.att ks)
  | [], [], _ => rfl
  | k :: ks, m :: ms, h => by
    rw [CopiedL] at h
    have ih := copied_hasKid kd h.2
    simp only [Doc.hasKid] at ih
    simp only [Doc.hasKid, mapNL, List.any_cons, ih]
    congr 1
    obtain ⟨h, _⟩ := h
    cases k <;> cases m <;> first | rfl | (simp [Copied] at h; done) | skip
    rw [Copied] at h
    simp only [mapN, h.1]
    rfl
  | [], m :: ms, h => by simp [CopiedL] at h
  | k :: ks, [], h => by simp [CopiedL] at h

theorem copied_isEmpty {v : Env} (kd : Kind) {ks : List (Node Full)} {ms : List (Node Att)} (h : CopiedL v ks ms) :
    Doc.isEmpty kd ms = Doc.isEmpty kd (mapNL Full.att ks) := by
  have key : ∀ {ks : List (Node Full)} {ms : List (Node Att)}, CopiedL v ks ms →
      Doc.isEmpty .p ms = Doc.isEmpty .p (mapNL Full.att ks) := by
    intro ks
    induction ks with
    | nil => intro ms h; cases ms with
      | nil => rfl
      | cons m ms => simp [CopiedL] at h
    | cons k ks ih =>
      intro ms h
      cases ms with
      | nil => simp [CopiedL] at h
      | cons m ms =>
        rw [CopiedL] at h
        have ih := ih h.2
        simp only [Doc.isEmpty] at ih
        simp only [Doc.isEmpty, mapNL, List.any_cons, Bool.not_or, ih]
        congr 2
        obtain ⟨h, _⟩ := h
        cases k <;> cases m <;> first | rfl | (simp [Copied] at h; done) | skip
        · rw [Copied] at h; subst h; rfl
        · rw [Copied] at h
          simp only [mapN, h.1]
          rfl
  cases kd with
  | body => rfl
  | div => simp only [Doc.isEmpty, copied_hasKid _ h]
  | p => exact key h
  | span => exact key h

theorem copyAtt_ok {v : Env} {a b : Att} (h : Doc.copyAtt v a = .ok b) :
    b.kind = a.kind ∧ b.id = Doc.copyId v a ∧ Doc.copyRegion v (ownRegion a) = .ok b.region ∧ Doc.copyRefs v a.style = .ok b.style := by
  unfold Doc.copyAtt at h
  obtain ⟨r, h1, h⟩ := bind_ok h
  obtain ⟨s, h2, h⟩ := bind_ok h
  cases h
  exact ⟨rfl, rfl, h1, h2⟩

theorem leafTiming_ok {v : Env} {c : Comp} {a b : Att} {ks : List (Node Att)} (h : Doc.leafTiming v c a ks = .ok b) :
    b.kind = a.kind ∧ b.id = a.id ∧ b.region = a.region ∧ b.style = a.style := by
  unfold Doc.leafTiming at h
  split at h
  · obtain ⟨_, _, h⟩ := bind_ok h
    obtain ⟨_, _, h⟩ := bind_ok h
    cases h
    exact ⟨rfl, rfl, rfl, rfl⟩
  · cases h
    exact ⟨rfl, rfl, rfl, rfl⟩

mutual
theorem seg_cut {v : Env} : ∀ {n : Node Full} {o : Option (Node Att)}, Doc.segNode v (mapN Full.lab n) = .ok o →
    CopiedL v (cut v.win n).toList o.toList
  | .text s, o, h => by
    simp only [mapN, Doc.segNode, Except.ok.injEq] at h
    subst h
    simp [cut, CopiedL, Copied]
  | .br, o, h => by
    simp only [mapN, Doc.segNode, Except.ok.injEq] at h
    subst h
    simp [cut, CopiedL, Copied]
  | .elem x kids, o, h => by
    rw [mapN] at h
    rcases Doc.segNode_elem h with ⟨hin, rfl⟩ | ⟨hin, a, ks, ha, hks, hcase⟩
    · rw [cut, if_neg (by simpa [Full.comp] using hin)]
      exact trivial
    · have ih := segL_cut hks
      rw [cut, if_pos (by simpa [Full.comp] using hin), ← copied_isEmpty _ ih]
      rcases hcase with ⟨he, rfl⟩ | ⟨he, a', ha', rfl⟩
      · rw [if_pos (by simpa [Full.kind] using he)]
        exact trivial
      · rw [if_neg (by simpa [Full.kind] using he)]
        simp only [Option.toList, CopiedL, Copied, and_true]
        obtain ⟨c1, c2, c3, c4⟩ := copyAtt_ok ha
        obtain ⟨l1, l2, l3, l4⟩ := leafTiming_ok ha'
        exact ⟨by rw [l1, c1]; rfl, by rw [l2, c2]; rfl, by rw [l3, ← c3]; rfl, by rw [l4, ← c4]; rfl, ih⟩
theorem segL_cut {v : Env} : ∀ {ns : List (Node Full)} {out : List (Node Att)}, Doc.segList v (mapNL Full.lab ns) = .ok out →
    CopiedL v (cutL v.win ns) out
  | [], out, h => by
    simp only [mapNL, Doc.segList, Except.ok.injEq] at h
    subst h
    exact trivial
  | k :: ks, out, h => by
    rw [mapNL] at h
    obtain ⟨o, rest, ho, hr, rfl⟩ := Doc.segList_cons h
    rw [cutL]
    exact copiedL_append (seg_cut ho) (segL_cut hr)
end

/-- The body of a segment is the copy of what was cut from the document. -/
theorem segment_cut {v : Env} {x : Full} {kids : List (Node Full)} {seg : Node Att}
    (h : Doc.segment v (mapN Full.lab (.elem x kids)) = .ok seg) :
    ∃ ks, cut v.win (.elem x kids) = some (.elem x ks) ∧ Copied v (.elem x ks) seg := by
  rw [mapN] at h
  obtain ⟨a, ms, hseg, hk, hcase⟩ := Doc.segment_cases h
  have hc := seg_cut (n := .elem x kids) (by rw [mapN]; exact hseg)
  simp only [Option.toList] at hc
  have hcut : ∃ ks, cut v.win (.elem x kids) = some (.elem x ks) := by
    cases hcc : cut v.win (.elem x kids) with
    | none => rw [hcc] at hc; simp [CopiedL] at hc
    | some c =>
      rw [cut] at hcc
      split at hcc
      · split at hcc
        · cases hcc
        · injection hcc with hcc; exact ⟨_, by rw [← hcc]⟩
      · cases hcc
  obtain ⟨ks, hcut⟩ := hcut
  refine ⟨ks, hcut, ?_⟩
  rw [hcut] at hc
  simp only [CopiedL, and_true] at hc
  rcases hcase with ⟨_, rfl⟩ | ⟨rfl, b, e, _, _, rfl⟩
  · exact hc
  · rw [Copied] at hc ⊢
    exact hc

/-! ### What is cut -/

theorem mem_cutL {w : Win} {c : Node Full} : ∀ {ks : List (Node Full)}, c ∈ cutL w ks → ∃ k ∈ ks, cut w k = some c
  | [], h => by simp [cutL] at h
  | k :: ks, h => by
    rw [cutL, List.mem_append] at h
    rcases h with h | h
    · refine ⟨k, List.mem_cons_self, ?_⟩
      cases hc : cut w k with
      | none => rw [hc] at h; simp at h
      | some c' => rw [hc] at h; simp at h; rw [h]
    · obtain ⟨k', hk', hc⟩ := mem_cutL h
      exact ⟨k', List.mem_cons_of_mem _ hk', hc⟩

/-- Every element of the cut tree is one of the document, with the same elements around it, and overlaps the window. -/
theorem cut_reach {w : Win} {n c : Node Full} (h : cut w n = some c) {anc : List Full} {m : Node Full} (hr : Reach c anc m) :
    ∃ m0, Reach n anc m0 ∧ cut w m0 = some m := by
  induction hr with
  | here => exact ⟨n, .here, h⟩
  | @step anc x ks k _ hk ih =>
    obtain ⟨m0, hm0, hc⟩ := ih
    cases m0 with
    | text s => simp [cut] at hc
    | br => simp [cut] at hc
    | elem y kids =>
      rw [cut] at hc
      split at hc
      · split at hc
        · cases hc
        · injection hc with hc
          injection hc with e1 e2
          subst e1 e2
          obtain ⟨k0, hk0, hck⟩ := mem_cutL hk
          exact ⟨k0, .step hm0 hk0, hck⟩
      · cases hc

theorem cut_elem {w : Win} {n : Node Full} {x : Full} {ks : List (Node Full)} (h : cut w n = some (.elem x ks)) :
    ∃ kids, n = .elem x kids ∧ Doc.Overlaps w x.comp = true ∧ ks = cutL w kids ∧ Doc.isEmpty x.kind (mapNL Full.att ks) = false := by
  cases n with
  | text s => simp [cut] at h
  | br => simp [cut] at h
  | elem y kids =>
    rw [cut] at h
    split at h
    · split at h
      · cases h
      · rename_i h1 h2
        injection h with h
        injection h with e1 e2
        subst e1 e2
        exact ⟨kids, rfl, by rw [← Doc.inSeg_eq]; exact h1, rfl, by simpa using h2⟩
    · cases h

theorem kept_labels {w : Win} {n : Node Full} {x : Full} (h : x ∈ kept w n) : x ∈ labelsOf n ∧ Doc.Overlaps w x.comp = true := by
  unfold kept at h
  obtain ⟨c, hc, hx⟩ := List.mem_flatMap.mp h
  have hc : cut w n = some c := by simpa using hc
  obtain ⟨anc, ks, hr⟩ := reach_of_label hx
  obtain ⟨m0, hm0, hcm⟩ := cut_reach hc hr
  obtain ⟨kids, rfl, ho, _⟩ := cut_elem hcm
  exact ⟨(labels_of_reach hm0).2 x (by simp [labelsOf]), ho⟩

theorem kept_of_cut {w : Win} {n c : Node Full} (h : cut w n = some c) : kept w n = labelsOf c := by
  simp [kept, h]

/-! ### What is collected -/

mutual
theorem mem_timed {x : Full} : ∀ {n : Node Full}, x ∈ timed n ↔ x ∈ labelsOf n ∧ (x.kind = .p ∨ x.kind = .span)
  | .text s => by simp [timed, labelsOf]
  | .br => by simp [timed, labelsOf]
  | .elem y kids => by
    rw [timed, labelsOf, List.mem_append, mem_timedL, List.mem_cons]
    constructor
    · rintro (⟨h1, h2⟩ | h)
      · exact ⟨.inr h1, h2⟩
      · split at h
        · rename_i hk
          rw [List.mem_singleton] at h
          subst h
          exact ⟨.inl rfl, hk⟩
        · simp at h
    · rintro ⟨rfl | h1, h2⟩
      · exact .inr (by rw [if_pos h2]; simp)
      · exact .inl ⟨h1, h2⟩
theorem mem_timedL {x : Full} : ∀ {ks : List (Node Full)}, x ∈ timedL ks ↔ x ∈ labelsOfL ks ∧ (x.kind = .p ∨ x.kind = .span)
  | [] => by simp [timedL, labelsOfL]
  | k :: ks => by
    rw [timedL, labelsOfL, List.mem_append, List.mem_append, mem_timed, mem_timedL]
    constructor
    · rintro (⟨h1, h2⟩ | ⟨h1, h2⟩)
      · exact ⟨.inl h1, h2⟩
      · exact ⟨.inr h1, h2⟩
    · rintro ⟨h1 | h1, h2⟩
      · exact .inl ⟨h1, h2⟩
      · exact .inr ⟨h1, h2⟩
end

theorem affected_labels {w : Win} {n : Node Full} {x : Full} (h : x ∈ affected w n) : x ∈ labelsOf n := by
  unfold affected at h
  rcases List.mem_append.mp h with h | h
  · cases n with
    | text s => simp [rootOf] at h
    | br => simp [rootOf] at h
    | elem y kids =>
      rw [rootOf, List.mem_singleton] at h
      subst h
      simp [labelsOf]
  · obtain ⟨i, _, hi⟩ := List.mem_filterMap.mp h
    exact (mem_timed.mp (List.mem_of_getElem? hi)).1

theorem affected_timed {w : Win} {n : Node Full} {x : Full} (h : x ∈ labelsOf n) (hk : x.kind = .p ∨ x.kind = .span)
    (ho : Doc.Overlaps w x.comp = true) : x ∈ affected w n := by
  unfold affected
  refine List.mem_append_right _ ?_
  obtain ⟨i, hi, e⟩ := List.getElem_of_mem (mem_timed.mpr ⟨h, hk⟩)
  rw [List.mem_filterMap]
  refine ⟨i, C53_finds _ w i x.comp ?_ ho, ?_⟩
  · rw [List.getElem?_map, List.getElem?_eq_getElem hi, e]; rfl
  · rw [List.getElem?_eq_getElem hi, e]

theorem affected_root {w : Win} {x : Full} {kids : List (Node Full)} : x ∈ affected w (.elem x kids) := by
  simp [affected, rootOf]

/-! ### Copied references -/

theorem newName_inj (pre : Option Nat) (a b : Name) (h : newName pre a = newName pre b) : a = b := by
  cases pre with
  | none => exact h
  | some n => simpa [newName, Doc.seqPrefix] using h

theorem copyRefs_seg {d : HDoc} {w : Win} {pre : Option Nat} {n : Node Full} : ∀ {l l' : List Name},
    Doc.copyRefs (segEnv d w pre n) l = .ok l' →
    l' = l.map (newName pre) ∧ ∀ s ∈ l, s ∈ collStyles w n ∨ s ∈ collRegions w n
  | [], l', h => by
    simp only [Doc.copyRefs, Except.ok.injEq] at h
    subst h
    simp
  | s :: ss, l', h => by
    rw [Doc.copyRefs] at h
    by_cases hs : s ∈ collStyles w n ∨ s ∈ collRegions w n
    · have : (segEnv d w pre n).ref s = some (newName pre s) := by simp only [segEnv, if_pos hs]
      rw [this] at h
      simp only at h
      obtain ⟨r, h1, h⟩ := bind_ok h
      cases h
      obtain ⟨e1, e2⟩ := copyRefs_seg h1
      refine ⟨by rw [e1]; rfl, ?_⟩
      intro t ht
      rcases List.mem_cons.mp ht with rfl | ht
      · exact hs
      · exact e2 t ht
    · have : (segEnv d w pre n).ref s = none := by simp only [segEnv, if_neg hs]
      rw [this] at h
      simp at h

theorem copyRefs_of {d : HDoc} {w : Win} {pre : Option Nat} {n : Node Full} : ∀ {l : List Name},
    (∀ s ∈ l, s ∈ collStyles w n ∨ s ∈ collRegions w n) → Doc.copyRefs (segEnv d w pre n) l = .ok (l.map (newName pre))
  | [], _ => rfl
  | s :: ss, h => by
    have : (segEnv d w pre n).ref s = some (newName pre s) := by simp only [segEnv, if_pos (h s List.mem_cons_self)]
    rw [Doc.copyRefs, this]
    simp only
    rw [copyRefs_of (fun t ht => h t (List.mem_cons_of_mem _ ht))]
    rfl

theorem copyRegion_seg {d : HDoc} {w : Win} {pre : Option Nat} {n : Node Full} {o o' : Option Name}
    (h : Doc.copyRegion (segEnv d w pre n) o = .ok o') :
    o' = o.map (newName pre) ∧ ∀ r, o = some r → r ∈ collStyles w n ∨ r ∈ collRegions w n := by
  cases o with
  | none => simp only [Doc.copyRegion, Except.ok.injEq] at h; subst h; simp
  | some r =>
    rw [Doc.copyRegion] at h
    by_cases hs : r ∈ collStyles w n ∨ r ∈ collRegions w n
    · have : (segEnv d w pre n).ref r = some (newName pre r) := by simp only [segEnv, if_pos hs]
      rw [this] at h
      cases h
      refine ⟨rfl, ?_⟩
      intro r' e
      injection e with e
      exact e ▸ hs
    · have : (segEnv d w pre n).ref r = none := by simp only [segEnv, if_neg hs]
      rw [this] at h
      simp at h

theorem copySheet_ok {d : HDoc} {w : Win} {pre : Option Nat} {n : Node Full} {coll : List Name} : ∀ {sh sh' : Sheet},
    copySheet (segEnv d w pre n) coll pre sh = .ok sh' →
    sh' = (sh.filter (fun s => decide (s.1 ∈ coll))).map (fun s => (newName pre s.1, s.2.map (newName pre)))
  | [], sh', h => by simp only [copySheet, Except.ok.injEq] at h; subst h; rfl
  | s :: ss, sh', h => by
    rw [copySheet] at h
    split at h
    · rename_i hs
      obtain ⟨r, h1, h⟩ := bind_ok h
      obtain ⟨rest, h2, h⟩ := bind_ok h
      cases h
      rw [List.filter_cons_of_pos (by simpa using hs), List.map_cons, ← copySheet_ok h2, (copyRefs_seg h1).1]
    · rename_i hs
      rw [List.filter_cons_of_neg (by simpa using hs)]
      exact copySheet_ok h

theorem copySheet_of {d : HDoc} {w : Win} {pre : Option Nat} {n : Node Full} {coll : List Name} : ∀ {sh : Sheet},
    (∀ s ∈ sh, s.1 ∈ coll → ∀ t ∈ s.2, t ∈ collStyles w n) → ∃ sh', copySheet (segEnv d w pre n) coll pre sh = .ok sh'
  | [], _ => ⟨[], rfl⟩
  | s :: ss, h => by
    obtain ⟨rest, hr⟩ := copySheet_of (sh := ss) (fun s hs => h s (List.mem_cons_of_mem _ hs))
    rw [copySheet]
    split
    · rename_i hs
      refine ⟨(newName pre s.1, s.2.map (newName pre)) :: rest, ?_⟩
      rw [copyRefs_of (fun t ht => .inl (h s List.mem_cons_self hs t ht))]
      simp only [bind, Except.bind]
      rw [hr]
      rfl
    · exact ⟨rest, hr⟩

/-- A copied region. -/
def newRegion (pre : Option Nat) (r : RegionDef) : RegionDef := { r with id := newName pre r.id, refs := r.refs.map (newName pre) }

theorem copyRegions_ok {d : HDoc} {w : Win} {pre : Option Nat} {n : Node Full} {coll : List Name} : ∀ {rs rs' : List RegionDef},
    copyRegions (segEnv d w pre n) coll pre rs = .ok rs' →
    rs' = (rs.filter (fun r => decide (r.id ∈ coll))).map (newRegion pre) ∧
    ∀ r ∈ rs, r.id ∈ coll → ∀ s ∈ r.refs, s ∈ collStyles w n ∨ s ∈ collRegions w n
  | [], rs', h => by simp only [copyRegions, Except.ok.injEq] at h; subst h; simp
  | r :: rs, rs', h => by
    rw [copyRegions] at h
    split at h
    · rename_i hs
      obtain ⟨q, h1, h⟩ := bind_ok h
      obtain ⟨rest, h2, h⟩ := bind_ok h
      cases h
      obtain ⟨e1, e2⟩ := copyRegions_ok h2
      obtain ⟨c1, c2⟩ := copyRefs_seg h1
      refine ⟨by rw [List.filter_cons_of_pos (by simpa using hs), List.map_cons, ← e1, c1]; rfl, ?_⟩
      intro r' hr' hc
      rcases List.mem_cons.mp hr' with rfl | hr'
      · exact c2
      · exact e2 r' hr' hc
    · rename_i hs
      obtain ⟨e1, e2⟩ := copyRegions_ok h
      refine ⟨by rw [List.filter_cons_of_neg (by simpa using hs)]; exact e1, ?_⟩
      intro r' hr' hc
      rcases List.mem_cons.mp hr' with rfl | hr'
      · exact absurd hc hs
      · exact e2 r' hr' hc

theorem copyRegions_of {d : HDoc} {w : Win} {pre : Option Nat} {n : Node Full} {coll : List Name} : ∀ {rs : List RegionDef},
    (∀ r ∈ rs, r.id ∈ coll → ∀ t ∈ r.refs, t ∈ collStyles w n) → ∃ rs', copyRegions (segEnv d w pre n) coll pre rs = .ok rs'
  | [], _ => ⟨[], rfl⟩
  | r :: rs, h => by
    obtain ⟨rest, hr⟩ := copyRegions_of (rs := rs) (fun r hr => h r (List.mem_cons_of_mem _ hr))
    rw [copyRegions]
    split
    · rename_i hs
      refine ⟨newRegion pre r :: rest, ?_⟩
      rw [copyRefs_of (fun t ht => .inl (h r List.mem_cons_self hs t ht))]
      simp only [bind, Except.bind]
      rw [hr]
      rfl
    · exact ⟨rest, hr⟩

/-- The styles and regions of a segment. -/
def segSheet (d : HDoc) (w : Win) (pre : Option Nat) (n : Node Full) : Sheet :=
  (d.head.sheet.filter (fun s => decide (s.1 ∈ collStyles w n ∧ s.1 ∈ usedStyles w n))).map
    (fun s => (newName pre s.1, s.2.map (newName pre)))
def segRegions (d : HDoc) (w : Win) (pre : Option Nat) (n : Node Full) : List RegionDef :=
  (d.head.regions.filter (fun r => decide (r.id ∈ collRegions w n ∧ r.id ∈ usedRegions w n))).map (newRegion pre)

theorem mem_map_newName {pre : Option Nat} {x : Name} {l : List Name} : newName pre x ∈ l.map (newName pre) ↔ x ∈ l := by
  rw [List.mem_map]
  exact ⟨fun ⟨y, hy, e⟩ => newName_inj pre _ _ e ▸ hy, fun h => ⟨x, h, rfl⟩⟩

theorem segmentOf_ok {d : HDoc} {w : Win} {pre : Option Nat} {n : Node Full} {s : HDoc} (h : segmentOf d w pre n = .ok s) :
    s.head.sheet = segSheet d w pre n ∧ s.head.own = copiedOwn d.head pre ∧ s.head.regions = segRegions d w pre n ∧
    s.head.geo = d.head.geo ∧ Doc.segment (segEnv d w pre n) (mapN Full.lab n) = .ok s.body ∧ s.avail = 0 ∧ s.base = d.base ∧
    s.rd = d.rd ∧
    ∀ r ∈ d.head.regions, r.id ∈ collRegions w n → ∀ s ∈ r.refs, s ∈ collStyles w n ∨ s ∈ collRegions w n := by
  unfold segmentOf at h
  obtain ⟨sh, h1, h⟩ := bind_ok h
  obtain ⟨rs, h2, h⟩ := bind_ok h
  obtain ⟨b, h3, h⟩ := bind_ok h
  split at h
  · cases h
  · simp only [bind, Except.bind, pure, Except.pure] at h
    cases h
    have e1 := copySheet_ok h1
    obtain ⟨e2, e3⟩ := copyRegions_ok h2
    refine ⟨?_, rfl, ?_, rfl, h3, rfl, rfl, rfl, e3⟩
    · show sh.filter _ = _
      rw [e1, List.filter_map, List.filter_filter, segSheet]
      congr 1
      apply List.filter_congr
      intro s _
      simp only [Function.comp, mem_map_newName]
      by_cases g1 : s.1 ∈ collStyles w n <;> by_cases g2 : s.1 ∈ usedStyles w n <;> simp [g1, g2]
    · show rs.filter _ = _
      rw [e2, List.filter_map, List.filter_filter, segRegions]
      congr 1
      apply List.filter_congr
      intro r _
      simp only [Function.comp, newRegion, mem_map_newName]
      by_cases g1 : r.id ∈ collRegions w n <;> by_cases g2 : r.id ∈ usedRegions w n <;> simp [g1, g2]

end Verif.SegHead
