import Verif.Doc.SegmentSpec
import Verif.Doc.TimingProps

/-! Helper lemmas for the segment theorems. -/
namespace Verif.Doc

theorem inSeg_eq (w : Win) (c : Comp) : inSeg w c = Overlaps w c := by
  unfold inSeg Overlaps
  cases w.b <;> cases c.e <;> cases w.e <;> simp [← Int.not_le]

theorem bind_ok {ε α β : Type} {x : Except ε α} {f : α → Except ε β} {b : β} (h : x >>= f = .ok b) :
    ∃ a, x = .ok a ∧ f a = .ok b := by
  cases x with
  | error e => simp [bind, Except.bind] at h
  | ok a => exact ⟨a, rfl, h⟩

theorem copyAtt_kind {v : Env} {a a' : Att} (h : copyAtt v a = .ok a') : a'.kind = a.kind := by
  unfold copyAtt at h
  obtain ⟨_, _, h⟩ := bind_ok h
  obtain ⟨_, _, h⟩ := bind_ok h
  simp only [pure, Except.pure, Except.ok.injEq] at h
  rw [← h]

theorem copyAtt_id {v : Env} {a a' : Att} (h : copyAtt v a = .ok a') : a'.id = copyId v a := by
  unfold copyAtt at h
  obtain ⟨_, _, h⟩ := bind_ok h
  obtain ⟨_, _, h⟩ := bind_ok h
  simp only [pure, Except.pure, Except.ok.injEq] at h
  rw [← h]

theorem leafTiming_kind {v : Env} {c : Comp} {a a' : Att} {ks : List (Node Att)}
    (h : leafTiming v c a ks = .ok a') : a'.kind = a.kind ∧ a'.id = a.id := by
  unfold leafTiming at h
  split at h
  · obtain ⟨_, _, h⟩ := bind_ok h
    obtain ⟨_, _, h⟩ := bind_ok h
    simp only [pure, Except.pure, Except.ok.injEq] at h
    rw [← h]; exact ⟨rfl, rfl⟩
  · simp only [Except.ok.injEq] at h
    rw [← h]; exact ⟨rfl, rfl⟩

/-- The cases of a step at an element. -/
theorem segNode_elem {v : Env} {x : Lab} {kids : List (Node Lab)} {o : Option (Node Att)}
    (h : segNode v (.elem x kids) = .ok o) :
    (inSeg v.win x.comp = false ∧ o = none) ∨
    (inSeg v.win x.comp = true ∧ ∃ a ks, copyAtt v x.att = .ok a ∧ segList v kids = .ok ks ∧
      ((isEmpty x.att.kind ks = true ∧ o = none) ∨
       (isEmpty x.att.kind ks = false ∧ ∃ a', leafTiming v x.comp a ks = .ok a' ∧ o = some (.elem a' ks)))) := by
  rw [segNode] at h
  by_cases hin : inSeg v.win x.comp = true
  · right
    rw [if_pos hin] at h
    obtain ⟨a, ha, h⟩ := bind_ok h
    obtain ⟨ks, hks, h⟩ := bind_ok h
    refine ⟨hin, a, ks, ha, hks, ?_⟩
    rw [copyAtt_kind ha] at h
    by_cases he : isEmpty x.att.kind ks = true
    · rw [if_pos he] at h
      simp only [pure, Except.pure, Except.ok.injEq] at h
      exact .inl ⟨he, h.symm⟩
    · rw [if_neg he] at h
      obtain ⟨a', ha', h⟩ := bind_ok h
      simp only [pure, Except.pure, Except.ok.injEq] at h
      exact .inr ⟨by simpa using he, a', ha', h.symm⟩
  · left
    rw [if_neg hin] at h
    simp only [Except.ok.injEq] at h
    exact ⟨by simpa using hin, h.symm⟩

theorem segList_cons {v : Env} {k : Node Lab} {ks : List (Node Lab)} {out : List (Node Att)}
    (h : segList v (k :: ks) = .ok out) :
    ∃ o rest, segNode v k = .ok o ∧ segList v ks = .ok rest ∧ out = o.toList ++ rest := by
  rw [segList] at h
  obtain ⟨o, ho, h⟩ := bind_ok h
  obtain ⟨rest, hr, h⟩ := bind_ok h
  simp only [pure, Except.pure, Except.ok.injEq] at h
  exact ⟨o, rest, ho, hr, h.symm⟩

/-- A step keeps the kind of what it keeps. -/
theorem segNode_kind {v : Env} {n : Node Lab} {m : Node Att} (h : segNode v n = .ok (some m)) :
    (∃ s, n = .text s ∧ m = .text s) ∨ (n = .br ∧ m = .br) ∨
    (∃ x kids a ks, n = .elem x kids ∧ m = .elem a ks ∧ a.kind = x.att.kind) := by
  cases n with
  | text s =>
    simp only [segNode, Except.ok.injEq, Option.some.injEq] at h
    exact .inl ⟨s, rfl, h.symm⟩
  | br =>
    simp only [segNode, Except.ok.injEq, Option.some.injEq] at h
    exact .inr (.inl ⟨rfl, h.symm⟩)
  | elem x kids =>
    right; right
    rcases segNode_elem h with ⟨_, h⟩ | ⟨_, a, ks, ha, hks, ⟨_, h⟩ | ⟨_, a', ha', h⟩⟩
    · simp at h
    · simp at h
    · injection h with h
      exact ⟨x, kids, a', ks, rfl, h, by rw [(leafTiming_kind ha').1, copyAtt_kind ha]⟩

theorem segList_fits {v : Env} {kd : Kind} : ∀ {kids : List (Node Lab)} {ks : List (Node Att)},
    segList v kids = .ok ks → (eraseL kids).all (fits kd) = true → ks.all (fits kd) = true := by
  intro kids
  induction kids with
  | nil => intro ks h _; simp only [segList, Except.ok.injEq] at h; rw [← h]; rfl
  | cons k kids ih =>
    intro ks h hf
    obtain ⟨o, rest, ho, hr, rfl⟩ := segList_cons h
    simp only [eraseL, List.all_cons, Bool.and_eq_true] at hf
    rw [List.all_append, ih hr hf.2, Bool.and_true]
    cases o with
    | none => rfl
    | some m =>
      simp only [Option.toList, List.all_cons, List.all_nil, Bool.and_true]
      rcases segNode_kind ho with ⟨s, rfl, rfl⟩ | ⟨rfl, rfl⟩ | ⟨x, kk, a, k2, rfl, rfl, hk⟩
      · simpa [erase, fits] using hf.1
      · simpa [erase, fits] using hf.1
      · have := hf.1
        simp only [erase, fits] at this ⊢
        rw [hk]; exact this

theorem segList_items {v : Env} : ∀ {kids : List (Node Lab)} {ks : List (Node Att)},
    segList v kids = .ok ks → items ks = items kids := by
  intro kids
  induction kids with
  | nil => intro ks h; simp only [segList, Except.ok.injEq] at h; rw [← h]; rfl
  | cons k kids ih =>
    intro ks h
    obtain ⟨o, rest, ho, hr, rfl⟩ := segList_cons h
    cases k with
    | text s =>
      simp only [segNode, Except.ok.injEq] at ho
      subst ho
      simp [items, ih hr]
    | br =>
      simp only [segNode, Except.ok.injEq] at ho
      subst ho
      simp [items, ih hr]
    | elem x kk =>
      cases o with
      | none => simp [items, ih hr]
      | some m =>
        rcases segNode_kind ho with ⟨s, h, _⟩ | ⟨h, _⟩ | ⟨x, kk, a, k2, h, rfl, hk⟩
        · simp at h
        · simp at h
        · simp [items, ih hr]

theorem items_eraseL (kids : List (Node Lab)) : items (eraseL kids) = items kids := by
  induction kids with
  | nil => rfl
  | cons k ks ih => cases k <;> simp [eraseL, erase, items, ih]

theorem isSpan_eraseL (kids : List (Node Lab)) :
    (eraseL kids).any (isSpan Att.kind) = kids.any (isSpan (fun x : Lab => x.att.kind)) := by
  induction kids with
  | nil => rfl
  | cons k ks ih => cases k <;> simp [eraseL, erase, isSpan, ih]

/-- No empty text item. -/
def textsOk : List Item → Bool
  | [] => true
  | .text s :: is => !s.isEmpty && textsOk is
  | .br :: is => textsOk is

theorem textsOk_shaped {kids : List (Node Att)} (h : shapedL kids = true) : textsOk (items kids) = true := by
  induction kids with
  | nil => rfl
  | cons k ks ih =>
    simp only [shapedL, Bool.and_eq_true] at h
    cases k with
    | text s => simp only [items, textsOk, Bool.and_eq_true]; exact ⟨by simpa [shaped] using h.1, ih h.2⟩
    | br => simp only [items, textsOk]; exact ih h.2
    | elem x kk => simp only [items]; exact ih h.2

/-- Emptiness of a p or span, in terms of its content. -/
theorem isEmpty_leafy {kd : Kind} (hk : kd = .p ∨ kd = .span) {ks : List (Node Att)} (ht : textsOk (items ks) = true) :
    isEmpty kd ks = (!(Visible (items ks)) && !(ks.any (isSpan Att.kind))) := by
  have h1 : isEmpty kd ks = !(ks.any (fun k => match k with
        | .br => true
        | .text s => !isSpace s
        | .elem a _ => decide (a.kind = .span))) := by
    rcases hk with rfl | rfl <;> rfl
  rw [h1, ← Bool.not_or]
  congr 1
  clear h1
  induction ks with
  | nil => rfl
  | cons k ks ih =>
    cases k with
    | text s =>
      simp only [items, textsOk, Bool.and_eq_true, Bool.not_eq_true'] at ht
      have := ih ht.2
      simp only [List.any_cons, this, items, Visible, isSpan]
      simp only [isSpace, ht.1, Bool.not_false, Bool.true_and, Bool.false_or, Bool.or_assoc]
    | br =>
      simp only [items, textsOk] at ht
      have := ih ht
      simp only [List.any_cons, this, items, Visible, isSpan, Bool.true_or]
    | elem x kk =>
      simp only [items] at ht
      have := ih ht
      simp only [List.any_cons, this, items, isSpan]
      rw [← Bool.or_assoc, ← Bool.or_assoc]
      congr 1
      exact Bool.or_comm _ _

/-- Without element children there are no leaves inside. -/
theorem leavesL_noElem {α : Type} (kd : α → Kind) {ks : List (Node α)}
    (h : ∀ x kk, Node.elem x kk ∉ ks) : leavesL kd ks = [] := by
  induction ks with
  | nil => rfl
  | cons k ks ih =>
    rw [leavesL, ih (fun x kk hm => h x kk (List.mem_cons_of_mem _ hm)), List.append_nil]
    cases k with
    | text s => rfl
    | br => rfl
    | elem x kk => exact absurd List.mem_cons_self (h x kk)

/-- In a p or span without spans there are no elements. -/
theorem noElem_of_noSpan {kd : Kind} (hk : kd = .p ∨ kd = .span) {ks : List (Node Att)}
    (hf : ks.all (fits kd) = true) (hs : ks.any (isSpan Att.kind) = false) : ∀ x kk, Node.elem x kk ∉ ks := by
  intro x kk hm
  have h1 := List.all_eq_true.mp hf _ hm
  have h2 := List.any_eq_false.mp hs _ hm
  rcases hk with rfl | rfl <;> simp_all [fits, isSpan]

theorem noElem_of_emptyDiv {ks : List (Node Att)} (hf : ks.all (fits .div) = true) (he : isEmpty .div ks = true) :
    ∀ x kk, Node.elem x kk ∉ ks := by
  intro x kk hm
  have h1 := List.all_eq_true.mp hf _ hm
  simp only [isEmpty, hasKid, Bool.and_eq_true, Bool.not_eq_true'] at he
  have h2 := List.any_eq_false.mp he.1 _ hm
  have h3 := List.any_eq_false.mp he.2 _ hm
  simp_all [fits]

mutual
/-- The leaves all of whose surrounding elements overlap the window. -/
def pruned (w : Win) : Node Lab → List (Lab × List Item)
  | .elem x kids =>
    if inSeg w x.comp then
      if Leaf (fun x => x.att.kind) x kids then (if Visible (items kids) then [(x, items kids)] else [])
      else prunedL w kids
    else []
  | _ => []
def prunedL (w : Win) : List (Node Lab) → List (Lab × List Item)
  | [] => []
  | k :: ks => pruned w k ++ prunedL w ks
end

theorem prunedL_noElem {w : Win} {ks : List (Node Lab)}
    (h : ∀ x kk, Node.elem x kk ∉ ks) : prunedL w ks = [] := by
  induction ks with
  | nil => rfl
  | cons k ks ih =>
    rw [prunedL, ih (fun x kk hm => h x kk (List.mem_cons_of_mem _ hm)), List.append_nil]
    cases k with
    | text s => rfl
    | br => rfl
    | elem x kk => exact absurd List.mem_cons_self (h x kk)

/-- How a leaf appears in a segment: same content, copied attributes, cut times. -/
def LeafCopy (v : Env) (l : Lab × List Item) (s : Att × List Item) : Prop :=
  s.2 = l.2 ∧ s.1.kind = l.1.att.kind ∧ s.1.id = copyId v l.1.att ∧ s.1.dur = none ∧
  ∃ b e, stamp v (some (trimBegin v.win l.1.comp.b)) = .ok b ∧ stamp v (trimEnd v.win l.1.comp.e) = .ok e ∧
    s.1.beg = some b ∧ s.1.fin = some e

theorem isTimedLeaf_eq {kd : Kind} (hk : kd = .p ∨ kd = .span) (ks : List (Node Att)) :
    isTimedLeaf kd ks = !(ks.any (isSpan Att.kind)) := by
  have : hasKid .span ks = ks.any (isSpan Att.kind) := by
    unfold hasKid
    congr 1
    funext k
    cases k <;> rfl
  rcases hk with rfl | rfl <;> simp only [isTimedLeaf, this]

theorem isTimedLeaf_other {kd : Kind} (hk : ¬ (kd = .p ∨ kd = .span)) (ks : List (Node Att)) :
    isTimedLeaf kd ks = false := by
  cases kd <;> simp_all [isTimedLeaf]

theorem copyAtt_dur {v : Env} {a a' : Att} (h : copyAtt v a = .ok a') (hk : a.kind ≠ .body) : a'.dur = none := by
  unfold copyAtt at h
  obtain ⟨_, _, h⟩ := bind_ok h
  obtain ⟨_, _, h⟩ := bind_ok h
  simp only [pure, Except.pure, Except.ok.injEq] at h
  subst h
  cases hkd : a.kind <;> simp_all

theorem forall₂_append {α β : Type} {R : α → β → Prop} {a c : List α} {b d : List β}
    (h1 : List.Forall₂ R a b) (h2 : List.Forall₂ R c d) : List.Forall₂ R (a ++ c) (b ++ d) := by
  induction h1 with
  | nil => exact h2
  | cons h _ ih => exact .cons h ih

mutual
theorem seg_leaves {v : Env} : ∀ (n : Node Lab) (o : Option (Node Att)), segNode v n = .ok o →
    shaped (erase n) = true → unmixed (erase n) = true →
    List.Forall₂ (LeafCopy v) (pruned v.win n) (leavesL Att.kind o.toList)
  | .text s, o, h, _, _ => by
    simp only [segNode, Except.ok.injEq] at h
    subst h
    exact .nil
  | .br, o, h, _, _ => by
    simp only [segNode, Except.ok.injEq] at h
    subst h
    exact .nil
  | .elem x kids, o, h, hs, hu => by
    simp only [erase, shaped, unmixed, Bool.and_eq_true] at hs hu
    rcases segNode_elem h with ⟨hin, rfl⟩ | ⟨hin, a, ks, ha, hks, hcase⟩
    · rw [pruned, if_neg (by simp [hin])]
      exact .nil
    · rw [pruned, if_pos hin]
      have ih := segL_leaves kids ks hks hs.2 hu.2
      have hf := segList_fits hks hs.1
      have hit := segList_items hks
      have htx : textsOk (items ks) = true := by
        rw [hit, ← items_eraseL]; exact textsOk_shaped hs.2
      by_cases hk : x.att.kind = .p ∨ x.att.kind = .span
      · -- p or span
        rw [isEmpty_leafy hk htx] at hcase
        have hsp : (eraseL kids).any (isSpan Att.kind) = kids.any (isSpan (fun x : Lab => x.att.kind)) := isSpan_eraseL kids
        by_cases hl : kids.any (isSpan (fun x : Lab => x.att.kind)) = true
        · -- has spans
          have hleaf : Leaf (fun x : Lab => x.att.kind) x kids = false := by simp [Leaf, hl]
          rw [if_neg (by simp [hleaf])]
          have hvis : Visible (items ks) = false := by
            rw [hit, ← items_eraseL]
            have := hu.1
            rw [hsp, hl] at this
            simpa using this
          rcases hcase with ⟨he, rfl⟩ | ⟨he, a', ha', rfl⟩
          · rw [hvis] at he
            simp only [Bool.not_false, Bool.true_and, Bool.not_eq_true'] at he
            rw [leavesL_noElem _ (noElem_of_noSpan hk hf he)] at ih
            exact ih
          · rw [hvis] at he
            simp only [Bool.not_false, Bool.true_and, Bool.not_eq_false'] at he
            have hleaf' : Leaf Att.kind a' ks = false := by simp [Leaf, he]
            simp only [Option.toList, leavesL, leaves, hleaf', List.append_nil]
            exact ih
        · -- a leaf
          have hl : kids.any (isSpan (fun x : Lab => x.att.kind)) = false := by simpa using hl
          have hleaf : Leaf (fun x : Lab => x.att.kind) x kids = true := by
            rcases hk with hk | hk <;> simp [Leaf, hl, hk]
          rw [if_pos hleaf]
          have hne := noElem_of_noSpan hk hs.1 (by rw [hsp]; exact hl)
          have hns : ks.any (isSpan Att.kind) = false := by
            rw [Bool.eq_false_iff]
            intro hc
            obtain ⟨m, hm, hms⟩ := List.any_eq_true.mp hc
            have : ∀ (kids : List (Node Lab)) (ks : List (Node Att)), segList v kids = .ok ks →
                (∀ x kk, Node.elem x kk ∉ eraseL kids) → ∀ x kk, Node.elem x kk ∉ ks := by
              intro kids
              induction kids with
              | nil => intro ks h _; simp only [segList, Except.ok.injEq] at h; rw [← h]; simp
              | cons k kids ih =>
                intro ks h hno
                obtain ⟨o, rest, ho, hr, rfl⟩ := segList_cons h
                intro y yy hy
                rcases List.mem_append.mp hy with hy | hy
                · cases o with
                  | none => simp at hy
                  | some m =>
                    simp only [Option.toList, List.mem_singleton] at hy
                    subst hy
                    rcases segNode_kind ho with ⟨s, _, h⟩ | ⟨_, h⟩ | ⟨z, kk, b, k2, rfl, h, _⟩
                    · simp at h
                    · simp at h
                    · exact hno z.att (eraseL kk) (by simp [eraseL, erase])
                · exact ih rest hr (fun z zz hz => hno z zz (by simp [eraseL, hz])) y yy hy
            have := this kids ks hks hne
            cases m with
            | elem z zz => exact this z zz hm
            | text s => simp [isSpan] at hms
            | br => simp [isSpan] at hms
          rcases hcase with ⟨he, rfl⟩ | ⟨he, a', ha', rfl⟩
          · rw [hns, hit] at he
            simp only [Bool.not_false, Bool.and_true, Bool.not_eq_true'] at he
            rw [if_neg (by simp [he])]
            exact .nil
          · rw [hns, hit] at he
            simp only [Bool.not_false, Bool.and_true, Bool.not_eq_false'] at he
            rw [if_pos he]
            have hkind := (leafTiming_kind ha').1
            rw [copyAtt_kind ha] at hkind
            have hid := (leafTiming_kind ha').2
            rw [copyAtt_id ha] at hid
            have hleaf' : Leaf Att.kind a' ks = true := by
              rcases hk with hk | hk <;> simp [Leaf, hns, hkind, hk]
            simp only [Option.toList, leavesL, leaves, hleaf', if_true, hit, he, List.append_nil]
            refine .cons ?_ .nil
            unfold leafTiming at ha'
            rw [copyAtt_kind ha, isTimedLeaf_eq hk, hns] at ha'
            simp only [Bool.not_false, if_true] at ha'
            obtain ⟨b, hb, ha'⟩ := bind_ok ha'
            obtain ⟨e, he', ha'⟩ := bind_ok ha'
            simp only [pure, Except.pure, Except.ok.injEq] at ha'
            have hnb : x.att.kind ≠ .body := by rcases hk with hk | hk <;> simp [hk]
            refine ⟨rfl, hkind, hid, ?_, b, e, hb, he', ?_, ?_⟩ <;> rw [← ha']
            show a.dur = none
            exact copyAtt_dur ha hnb
      · -- div or body
        have hleaf : Leaf (fun x : Lab => x.att.kind) x kids = false := by
          simp only [not_or] at hk; simp [Leaf, hk.1, hk.2]
        rw [if_neg (by simp [hleaf])]
        rcases hcase with ⟨he, rfl⟩ | ⟨he, a', ha', rfl⟩
        · have hd : x.att.kind = .div := by
            cases hkd : x.att.kind <;> simp_all [isEmpty]
          rw [hd] at he hf
          rw [leavesL_noElem _ (noElem_of_emptyDiv hf he)] at ih
          exact ih
        · have hkind := (leafTiming_kind ha').1
          rw [copyAtt_kind ha] at hkind
          have hleaf' : Leaf Att.kind a' ks = false := by
            simp only [not_or] at hk; simp [Leaf, hkind, hk.1, hk.2]
          simp only [Option.toList, leavesL, leaves, hleaf', List.append_nil]
          exact ih
theorem segL_leaves {v : Env} : ∀ (ns : List (Node Lab)) (out : List (Node Att)), segList v ns = .ok out →
    shapedL (eraseL ns) = true → unmixedL (eraseL ns) = true →
    List.Forall₂ (LeafCopy v) (prunedL v.win ns) (leavesL Att.kind out)
  | [], out, h, _, _ => by
    simp only [segList, Except.ok.injEq] at h
    subst h
    exact .nil
  | k :: ks, out, h, hs, hu => by
    obtain ⟨o, rest, ho, hr, rfl⟩ := segList_cons h
    simp only [eraseL, shapedL, unmixedL, Bool.and_eq_true] at hs hu
    have h1 := seg_leaves k o ho hs.1 hu.1
    have h2 := segL_leaves ks rest hr hs.2 hu.2
    rw [prunedL]
    have : leavesL Att.kind (o.toList ++ rest) = leavesL Att.kind o.toList ++ leavesL Att.kind rest := by
      cases o <;> simp [leavesL]
    rw [this]
    exact forall₂_append h1 h2
end

end Verif.Doc
