import Verif.Mark.Lemmas

/-! Lemmas for the theorems about marks. -/
namespace Verif.Mark

open Verif.Doc (Node Att Kind Lab Comp Win Env SErr Item Overlaps bind_ok erase eraseL shaped shapedL fits items)
open Verif.SegHead (mapN mapNL mapNL_append)

theorem saidL_append {α : Type} (c : Around) : ∀ a b : List (Node (α × Marks)), saidL c (a ++ b) = saidL c a ++ saidL c b
  | [], b => rfl
  | k :: ks, b => by rw [List.cons_append, saidL, saidL, saidL_append c ks b, List.append_assoc]

/-- Copied marks say the same. -/
theorem enter_copy {c : Around} {kd : Kind} {m : Marks} (h : (kd = .body ∨ kd = .div) → m.lang = none ∧ m.space = none) :
    c.enter (copyMarks kd m) = c.enter m := by
  cases kd with
  | p => rfl
  | span => rfl
  | div => obtain ⟨h1, h2⟩ := h (.inr rfl); simp [Around.enter, copyMarks, h1, h2]
  | body => obtain ⟨h1, h2⟩ := h (.inl rfl); simp [Around.enter, copyMarks, h1, h2]

/-- Converted marks say the same. -/
theorem enter_conv {c : Around} {kd : Kind} {m : Marks} (h : (kd = .body ∨ kd = .div) → m.lang = none ∧ m.space = none)
    (hr : kd = .div → m.role = none) : c.enter (convMarks kd m) = c.enter m := by
  cases kd with
  | p => rfl
  | span => rfl
  | div => obtain ⟨h1, h2⟩ := h (.inr rfl); simp [Around.enter, convMarks, h1, h2, hr rfl]
  | body => obtain ⟨h1, h2⟩ := h (.inl rfl); simp [Around.enter, convMarks, h1, h2]

/-! ### Content that shows nothing -/

/-- Without elements, what is said is the items. -/
theorem saidL_noElem {α : Type} (c : Around) : ∀ {ks : List (Node (α × Marks))}, (∀ x kk, Node.elem x kk ∉ forgetL ks) →
    saidL c ks = (items (forgetL ks)).map (fun i => (i, c))
  | [], _ => rfl
  | k :: ks, h => by
    have ih := saidL_noElem c (ks := ks) (fun x kk hm => h x kk (by
      simp only [forgetL, mapNL] at hm ⊢
      exact List.mem_cons_of_mem _ hm))
    rw [saidL, ih]
    cases k with
    | text s => simp [said, forgetL, mapNL, mapN, items]
    | br => simp [said, forgetL, mapNL, mapN, items]
    | elem x kk => exact absurd (by simp [forgetL, mapNL, mapN]) (h x.1 (mapNL Prod.fst kk))

theorem shows_items (c : Around) (l : List Item) (h : Doc.Visible l = false) : (l.map (fun i => (i, c))).filter shows = [] := by
  rw [List.filter_eq_nil_iff]
  intro i hi
  obtain ⟨j, hj, rfl⟩ := List.mem_map.mp hi
  unfold Doc.Visible at h
  have := List.any_eq_false.mp h j hj
  cases j with
  | br => simp at this
  | text s => simpa [shows] using this

theorem items_div {ks : List (Node Att)} (h : ks.all (fits .div) = true) : items ks = [] := by
  induction ks with
  | nil => rfl
  | cons k ks ih =>
    simp only [List.all_cons, Bool.and_eq_true] at h
    cases k with
    | text s => simp [fits] at h
    | br => simp [fits] at h
    | elem a kk => rw [items]; exact ih h.2

/-- What an element that was dropped as empty would have said. -/
theorem empty_said {c : Around} {kd : Kind} {ks : List (Node (Att × Marks))} (hf : (forgetL ks).all (fits kd) = true)
    (ht : Doc.textsOk (items (forgetL ks)) = true) (he : Doc.isEmpty kd (forgetL ks) = true) : (saidL c ks).filter shows = [] := by
  have leafy : (kd = .p ∨ kd = .span) → (saidL c ks).filter shows = [] := by
    intro hk
    rw [Doc.isEmpty_leafy hk ht] at he
    simp only [Bool.and_eq_true, Bool.not_eq_true'] at he
    rw [saidL_noElem c (Doc.noElem_of_noSpan hk hf he.2)]
    exact shows_items c _ he.1
  cases kd with
  | p => exact leafy (.inl rfl)
  | span => exact leafy (.inr rfl)
  | body => simp [Doc.isEmpty] at he
  | div =>
    rw [saidL_noElem c (Doc.noElem_of_emptyDiv hf he), items_div hf]
    rfl

/-! ### Segmentation -/

/-- The cases of a step at an element. -/
theorem segNode_elem {v : Env} {x : Lab × Marks} {kids : List (Node (Lab × Marks))} {o : Option (Node (Att × Marks))}
    (h : segNode v (.elem x kids) = .ok o) :
    (Doc.inSeg v.win x.1.comp = false ∧ o = none) ∨
    (Doc.inSeg v.win x.1.comp = true ∧ ∃ a ks, Doc.copyAtt v x.1.att = .ok a ∧ segList v kids = .ok ks ∧
      ((Doc.isEmpty x.1.att.kind (forgetL ks) = true ∧ o = none) ∨
       (Doc.isEmpty x.1.att.kind (forgetL ks) = false ∧ ∃ a', Doc.leafTiming v x.1.comp a (forgetL ks) = .ok a' ∧
          o = some (.elem (a', copyMarks x.1.att.kind x.2) ks)))) := by
  rw [segNode] at h
  by_cases hin : Doc.inSeg v.win x.1.comp = true
  · right
    rw [if_pos hin] at h
    obtain ⟨a, ha, h⟩ := bind_ok h
    obtain ⟨ks, hks, h⟩ := bind_ok h
    refine ⟨hin, a, ks, ha, hks, ?_⟩
    rw [Doc.copyAtt_kind ha] at h
    by_cases he : Doc.isEmpty x.1.att.kind (forgetL ks) = true
    · rw [if_pos he] at h
      simp only [pure, Except.pure, Except.ok.injEq] at h
      exact .inl ⟨he, h.symm⟩
    · rw [if_neg he] at h
      obtain ⟨a', ha', h⟩ := bind_ok h
      simp only [pure, Except.pure, Except.ok.injEq] at h
      exact .inr ⟨by simpa using he, a', ha', h.symm⟩
  · left
    rw [if_neg hin] at h
    simp only [Except.ok.injEq] at h
    exact ⟨by simpa using hin, h.symm⟩

theorem segList_cons {v : Env} {k : Node (Lab × Marks)} {ks : List (Node (Lab × Marks))} {out : List (Node (Att × Marks))}
    (h : segList v (k :: ks) = .ok out) :
    ∃ o rest, segNode v k = .ok o ∧ segList v ks = .ok rest ∧ out = o.toList ++ rest := by
  rw [segList] at h
  obtain ⟨o, ho, h⟩ := bind_ok h
  obtain ⟨rest, hr, h⟩ := bind_ok h
  simp only [pure, Except.pure, Except.ok.injEq] at h
  exact ⟨o, rest, ho, hr, h.symm⟩

/-- Kind of a labelled element. -/
abbrev lkind (x : Lab) : Kind := x.att.kind

mutual
theorem seg_said {v : Env} : ∀ (n : Node (Lab × Marks)) (o : Option (Node (Att × Marks))) (c : Around), segNode v n = .ok o →
    Marked lkind n → shaped (erase (forget n)) = true →
    (saidL c o.toList).filter shows = (saidIn v.win c n).filter shows
  | .text s, o, c, h, _, _ => by
    simp only [segNode, Except.ok.injEq] at h
    subst h
    rfl
  | .br, o, c, h, _, _ => by
    simp only [segNode, Except.ok.injEq] at h
    subst h
    rfl
  | .elem x kids, o, c, h, hm, hs => by
    rw [Marked] at hm
    simp only [forget, mapN, erase, shaped, Bool.and_eq_true] at hs
    rw [saidIn]
    rcases segNode_elem h with ⟨hin, rfl⟩ | ⟨hin, a, ks, ha, hks, hcase⟩
    · rw [Doc.inSeg_eq] at hin
      rw [if_neg (by simp [hin])]
      rfl
    · rw [Doc.inSeg_eq] at hin
      rw [if_pos hin]
      have ih := segL_said kids ks (c.enter x.2) hks hm.2 hs.2
      have hks' : Doc.segList v (forgetL kids) = .ok (forgetL ks) := by rw [forget_segList, hks]; rfl
      rcases hcase with ⟨he, rfl⟩ | ⟨he, a', ha', rfl⟩
      · rw [← ih]
        have hf := Doc.segList_fits hks' hs.1
        have htx : Doc.textsOk (items (forgetL ks)) = true := by
          rw [Doc.segList_items hks', ← Doc.items_eraseL]; exact Doc.textsOk_shaped hs.2
        rw [empty_said hf htx he]
        rfl
      · simp only [Option.toList, saidL, said, List.append_nil]
        rw [enter_copy hm.1]
        exact ih
theorem segL_said {v : Env} : ∀ (ns : List (Node (Lab × Marks))) (out : List (Node (Att × Marks))) (c : Around), segList v ns = .ok out →
    MarkedL lkind ns → shapedL (eraseL (forgetL ns)) = true →
    (saidL c out).filter shows = (saidInL v.win c ns).filter shows
  | [], out, c, h, _, _ => by
    simp only [segList, Except.ok.injEq] at h
    subst h
    rfl
  | k :: ks, out, c, h, hm, hs => by
    obtain ⟨o, rest, ho, hr, rfl⟩ := segList_cons h
    rw [MarkedL] at hm
    simp only [forgetL, mapNL, eraseL, shapedL, Bool.and_eq_true] at hs
    rw [saidL_append, saidInL, List.filter_append, List.filter_append, seg_said k o c ho hm.1 hs.1, segL_said ks rest c hr hm.2 hs.2]
end

/-- What a segment says. -/
theorem segment_said {v : Env} {n : Node (Lab × Marks)} {seg : Node (Att × Marks)} {c : Around} (h : segment v n = .ok seg)
    (hm : Marked lkind n) (hs : shaped (erase (forget n)) = true) :
    (said c seg).filter shows = (saidIn v.win c n).filter shows := by
  unfold segment at h
  obtain ⟨o, ho, h⟩ := bind_ok h
  rw [← seg_said n o c ho hm hs]
  match o, h with
  | some (.elem a []), h =>
    simp only at h
    obtain ⟨b, _, h⟩ := bind_ok h
    obtain ⟨e, _, h⟩ := bind_ok h
    simp only [pure, Except.pure, Except.ok.injEq] at h
    rw [← h]
    rfl
  | some (.elem a (k :: ks)), h =>
    simp only [pure, Except.pure, Except.ok.injEq] at h
    rw [← h]
    simp [saidL]
  | some (.text s), h =>
    simp only [pure, Except.pure, Except.ok.injEq] at h
    rw [← h]
    simp [saidL]
  | some .br, h =>
    simp only [pure, Except.pure, Except.ok.injEq] at h
    rw [← h]
    simp [saidL]
  | none, h => simp [throw, throwThe, MonadExceptOf.throw] at h

/-! ### Marks of what was copied -/

theorem markedL_append {α : Type} {kd : α → Kind} : ∀ {a b : List (Node (α × Marks))}, MarkedL kd a → MarkedL kd b → MarkedL kd (a ++ b)
  | [], b, _, h => h
  | k :: ks, b, h, h' => by rw [MarkedL] at h; rw [List.cons_append, MarkedL]; exact ⟨h.1, markedL_append h.2 h'⟩

theorem noDivRoleL_append {α : Type} {kd : α → Kind} : ∀ {a b : List (Node (α × Marks))}, NoDivRoleL kd a → NoDivRoleL kd b →
    NoDivRoleL kd (a ++ b)
  | [], b, _, h => h
  | k :: ks, b, h, h' => by rw [NoDivRoleL] at h; rw [List.cons_append, NoDivRoleL]; exact ⟨h.1, noDivRoleL_append h.2 h'⟩

theorem copyMarks_marked (kd : Kind) (m : Marks) : (kd = .body ∨ kd = .div) → (copyMarks kd m).lang = none ∧ (copyMarks kd m).space = none := by
  rintro (rfl | rfl) <;> exact ⟨rfl, rfl⟩

theorem copyMarks_role (kd : Kind) (m : Marks) : (copyMarks kd m).role = m.role := by
  cases kd <;> rfl

theorem copyMarks_agent (kd : Kind) (m : Marks) : (copyMarks kd m).agent = m.agent := by
  cases kd <;> rfl

mutual
theorem seg_marked {v : Env} : ∀ (n : Node (Lab × Marks)) (o : Option (Node (Att × Marks))), segNode v n = .ok o →
    MarkedL Att.kind o.toList ∧ (NoDivRole lkind n → NoDivRoleL Att.kind o.toList)
  | .text s, o, h => by
    simp only [segNode, Except.ok.injEq] at h
    subst h
    simp [MarkedL, Marked, NoDivRoleL, NoDivRole]
  | .br, o, h => by
    simp only [segNode, Except.ok.injEq] at h
    subst h
    simp [MarkedL, Marked, NoDivRoleL, NoDivRole]
  | .elem x kids, o, h => by
    rcases segNode_elem h with ⟨hin, rfl⟩ | ⟨hin, a, ks, ha, hks, ⟨_, rfl⟩ | ⟨_, a', ha', rfl⟩⟩
    · exact ⟨trivial, fun _ => trivial⟩
    · exact ⟨trivial, fun _ => trivial⟩
    · have ih := segL_marked kids ks hks
      have hk : a'.kind = x.1.att.kind := by rw [(Doc.leafTiming_kind ha').1, Doc.copyAtt_kind ha]
      simp only [Option.toList, MarkedL, Marked, NoDivRoleL, NoDivRole, and_true]
      rw [hk]
      exact ⟨⟨copyMarks_marked _ _, ih.1⟩, fun hn => ⟨fun h => by rw [copyMarks_role]; exact hn.1 h, ih.2 hn.2⟩⟩
theorem segL_marked {v : Env} : ∀ (ns : List (Node (Lab × Marks))) (out : List (Node (Att × Marks))), segList v ns = .ok out →
    MarkedL Att.kind out ∧ (NoDivRoleL lkind ns → NoDivRoleL Att.kind out)
  | [], out, h => by
    simp only [segList, Except.ok.injEq] at h
    subst h
    exact ⟨trivial, fun _ => trivial⟩
  | k :: ks, out, h => by
    obtain ⟨o, rest, ho, hr, rfl⟩ := segList_cons h
    rw [NoDivRoleL]
    have h1 := seg_marked k o ho
    have h2 := segL_marked ks rest hr
    exact ⟨markedL_append h1.1 h2.1, fun hn => noDivRoleL_append (h1.2 hn.1) (h2.2 hn.2)⟩
end

/-- A segment's body element: kind, marks and content. -/
theorem segment_body {v : Env} {x : Lab × Marks} {kids : List (Node (Lab × Marks))} {seg : Node (Att × Marks)}
    (h : segment v (.elem x kids) = .ok seg) :
    ∃ a ks, seg = .elem (a, copyMarks x.1.att.kind x.2) ks ∧ a.kind = x.1.att.kind ∧ segList v kids = .ok ks := by
  unfold segment at h
  obtain ⟨o, ho, h⟩ := bind_ok h
  rcases segNode_elem ho with ⟨hin, rfl⟩ | ⟨hin, a, ks, ha, hks, ⟨_, rfl⟩ | ⟨_, a', ha', rfl⟩⟩
  · simp [throw, throwThe, MonadExceptOf.throw] at h
  · simp [throw, throwThe, MonadExceptOf.throw] at h
  · have hk : a'.kind = x.1.att.kind := by rw [(Doc.leafTiming_kind ha').1, Doc.copyAtt_kind ha]
    cases ks with
    | nil =>
      simp only at h
      obtain ⟨b, _, h⟩ := bind_ok h
      obtain ⟨e, _, h⟩ := bind_ok h
      simp only [pure, Except.pure, Except.ok.injEq] at h
      exact ⟨_, _, h.symm, hk, hks⟩
    | cons k ks =>
      simp only [pure, Except.pure, Except.ok.injEq] at h
      exact ⟨_, _, h.symm, hk, hks⟩

/-! ### Splicing -/

mutual
theorem rename_said : ∀ (n : Node (Att × Marks)) (ids : List Doc.Name) (c : Around), Marked Att.kind n →
    said c (renameNode ids n).2 = said c n
  | .text s, ids, c, _ => rfl
  | .br, ids, c, _ => rfl
  | .elem a kids, ids, c, h => by
    rw [Marked] at h
    have ih := renameL_said kids ids (c.enter a.2) h.2
    rw [renameNode]
    cases a.1.id with
    | none => simp only [said]; rw [enter_copy h.1]; exact ih
    | some x => simp only [said]; rw [enter_copy h.1]; exact ih
theorem renameL_said : ∀ (ns : List (Node (Att × Marks))) (ids : List Doc.Name) (c : Around), MarkedL Att.kind ns →
    saidL c (renameList ids ns).2 = saidL c ns
  | [], ids, c, _ => rfl
  | k :: ks, ids, c, h => by
    rw [MarkedL] at h
    simp only [renameList, saidL, rename_said k ids c h.1, renameL_said ks _ c h.2]
end

mutual
theorem rename_marked : ∀ (n : Node (Att × Marks)) (ids : List Doc.Name),
    Marked Att.kind (renameNode ids n).2 ∧ (NoDivRole Att.kind n → NoDivRole Att.kind (renameNode ids n).2)
  | .text s, ids => ⟨trivial, fun _ => trivial⟩
  | .br, ids => ⟨trivial, fun _ => trivial⟩
  | .elem a kids, ids => by
    have ih := renameL_marked kids ids
    rw [renameNode, NoDivRole]
    cases a.1.id with
    | none => exact ⟨⟨copyMarks_marked _ _, ih.1⟩, fun h => ⟨fun hd => by rw [copyMarks_role]; exact h.1 hd, ih.2 h.2⟩⟩
    | some x => exact ⟨⟨copyMarks_marked _ _, ih.1⟩, fun h => ⟨fun hd => by rw [copyMarks_role]; exact h.1 hd, ih.2 h.2⟩⟩
theorem renameL_marked : ∀ (ns : List (Node (Att × Marks))) (ids : List Doc.Name),
    MarkedL Att.kind (renameList ids ns).2 ∧ (NoDivRoleL Att.kind ns → NoDivRoleL Att.kind (renameList ids ns).2)
  | [], ids => ⟨trivial, fun _ => trivial⟩
  | k :: ks, ids => by
    rw [NoDivRoleL]
    have h1 := rename_marked k ids
    have h2 := renameL_marked ks (renameNode ids k).1
    exact ⟨⟨h1.1, h2.1⟩, fun h => ⟨h1.2 h.1, h2.2 h.2⟩⟩
end

/-! ### Conversion -/

mutual
theorem conv_said {m : Convert.Media} : ∀ (n n' : Node (Att × Marks)) (c : Around), conv m n = .ok n' → Marked Att.kind n →
    NoDivRole Att.kind n → said c n' = said c n
  | .text s, n', c, h, _, _ => by
    simp only [conv, Except.ok.injEq] at h
    subst h
    rfl
  | .br, n', c, h, _, _ => by
    simp only [conv, Except.ok.injEq] at h
    subst h
    rfl
  | .elem a kids, n', c, h, hm, hn => by
    rw [Marked] at hm
    rw [NoDivRole] at hn
    rw [conv] at h
    obtain ⟨ks, hks, h⟩ := bind_ok h
    obtain ⟨a', _, h⟩ := bind_ok h
    split at h
    · simp only [pure, Except.pure, Except.ok.injEq] at h
      subst h
      simp only [said]
      rw [enter_conv hm.1 hn.1]
      exact convL_said kids ks _ hks hm.2 hn.2
    · simp [throw, throwThe, MonadExceptOf.throw] at h
theorem convL_said {m : Convert.Media} : ∀ (ns ns' : List (Node (Att × Marks))) (c : Around), convL m ns = .ok ns' → MarkedL Att.kind ns →
    NoDivRoleL Att.kind ns → saidL c ns' = saidL c ns
  | [], ns', c, h, _, _ => by
    simp only [convL, Except.ok.injEq] at h
    subst h
    rfl
  | k :: ks, ns', c, h, hm, hn => by
    rw [MarkedL] at hm
    rw [NoDivRoleL] at hn
    rw [convL] at h
    obtain ⟨k', hk, h⟩ := bind_ok h
    obtain ⟨ks', hks, h⟩ := bind_ok h
    simp only [pure, Except.pure, Except.ok.injEq] at h
    subst h
    rw [saidL, saidL, conv_said k k' c hk hm.1 hn.1, convL_said ks ks' c hks hm.2 hn.2]
end

end Verif.Mark
