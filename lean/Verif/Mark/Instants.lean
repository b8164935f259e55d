import Verif.Mark.Props
import Verif.SegHead.KeepProps

/-!
# C109 at each instant

What a viewer sees at an instant, each piece with the language, white space handling, agents and roles around it.
-/
namespace Verif.Mark

open Verif.Doc (Node Att Kind Lab Comp Win Env SErr TErr Item Overlaps bind_ok erase eraseL shaped shapedL unmixed unmixedL fits items Leaf isSpan
  leaves leavesL Visible inSeg Cov times timesL Sane wellTimed inMs validateDoc)
open Verif.SegHead (mapN mapNL mapNL_append leaves_mapN leavesL_mapN items_mapNL)

/-! ### Specification -/

mutual
/-- Beside every element what holds directly inside it. -/
def around {α : Type} (c : Around) : Node (α × Marks) → Node (α × Around)
  | .text s => .text s
  | .br => .br
  | .elem x kids => .elem (x.1, c.enter x.2) (aroundL (c.enter x.2) kids)
def aroundL {α : Type} (c : Around) : List (Node (α × Marks)) → List (Node (α × Around))
  | [] => []
  | k :: ks => around c k :: aroundL c ks
end

/-- What a validated document shows at `t`, in document order: the content of the paragraphs and spans (without spans
inside) that are active then, each with what holds there. -/
def MDoc.shownAt (d : MDoc Lab) (t : Int) : List (List Item × Around) :=
  ((leaves (fun x => x.1.att.kind) (around (outer d.lang d.space) d.body)).filter (fun l => l.1.1.comp.at t)).map (fun l => (l.2, l.1.2))

/-! ### Validation -/

/-- The written attributes of labelled elements. -/
abbrev attOf (x : Lab × Marks) : Att × Marks := (x.1.att, x.2)

mutual
theorem forget_attach : ∀ (n : Node Lab) (r : Node (Att × Marks)), erase n = forget r → forget (attach n r) = n ∧ mapN attOf (attach n r) = r
  | .text s, .text t, h => by simp only [erase, forget, mapN, Node.text.injEq] at h; subst h; exact ⟨rfl, rfl⟩
  | .br, .br, _ => ⟨rfl, rfl⟩
  | .elem x kids, .elem a ms, h => by
    simp only [erase, forget, mapN, Node.elem.injEq] at h
    obtain ⟨h1, h2⟩ := forget_attachL kids ms h.2
    simp only [forgetL] at h1
    simp only [attach, forget, mapN, h1, h2, attOf, h.1, and_self]
  | .text s, .br, h => by simp [erase, mapN] at h
  | .text s, .elem a ms, h => by simp [erase, mapN] at h
  | .br, .text s, h => by simp [erase, mapN] at h
  | .br, .elem a ms, h => by simp [erase, mapN] at h
  | .elem x kids, .text s, h => by simp [erase, mapN] at h
  | .elem x kids, .br, h => by simp [erase, mapN] at h
theorem forget_attachL : ∀ (ns : List (Node Lab)) (rs : List (Node (Att × Marks))), eraseL ns = forgetL rs →
    forgetL (attachL ns rs) = ns ∧ mapNL attOf (attachL ns rs) = rs
  | [], [], _ => ⟨rfl, rfl⟩
  | k :: ks, m :: ms, h => by
    simp only [eraseL, forgetL, mapNL, List.cons.injEq] at h
    obtain ⟨h1, h2⟩ := forget_attach k m h.1
    obtain ⟨h3, h4⟩ := forget_attachL ks ms h.2
    simp only [forgetL, forget] at h1 h3
    simp only [attachL, forgetL, mapNL, h1, h2, h3, h4, and_self]
  | [], m :: ms, h => by simp [eraseL, mapNL] at h
  | k :: ks, [], h => by simp [eraseL, mapNL] at h
end

mutual
theorem erase_times (avail : Int) : ∀ (n : Node Att) (sync : Int) (bound : Option Int), erase (times avail sync bound n) = n
  | .text s, _, _ => rfl
  | .br, _, _ => rfl
  | .elem a kids, sync, bound => by simp only [times, erase, eraseL_timesL avail kids]
theorem eraseL_timesL (avail : Int) : ∀ (ns : List (Node Att)) (sync : Int) (bound : Option Int), eraseL (timesL avail sync bound ns) = ns
  | [], _, _ => rfl
  | k :: ks, sync, bound => by simp only [timesL, eraseL, erase_times avail k, eraseL_timesL avail ks]
end

/-- A validated document: its labels are those of `Verif.Doc`, its marks those written. -/
theorem validate_ok {avail : Int} {d : MDoc Att} {o : MDoc Lab} (h : validate avail d = .ok o) :
    o.lang = d.lang ∧ o.space = d.space ∧ forget o.body = times avail 0 none (forget d.body) ∧ mapN attOf o.body = d.body := by
  unfold validate at h
  rw [Doc.validateDoc_eq] at h
  simp only [Except.map, Except.ok.injEq] at h
  subst h
  obtain ⟨h1, h2⟩ := forget_attach (times avail 0 none (forget d.body)) d.body (erase_times avail _ _ _)
  exact ⟨rfl, rfl, h1, h2⟩

/-! ### Leaves with what holds in them -/

mutual
theorem mapN_around {α β : Type} (f : α → β) : ∀ (n : Node (α × Marks)) (c : Around),
    around c (mapN (fun x => (f x.1, x.2)) n) = mapN (fun x => (f x.1, x.2)) (around c n)
  | .text s, _ => rfl
  | .br, _ => rfl
  | .elem x kids, c => by simp only [mapN, around, mapNL_around f kids]
theorem mapNL_around {α β : Type} (f : α → β) : ∀ (ns : List (Node (α × Marks))) (c : Around),
    aroundL c (mapNL (fun x => (f x.1, x.2)) ns) = mapNL (fun x => (f x.1, x.2)) (aroundL c ns)
  | [], _ => rfl
  | k :: ks, c => by simp only [mapNL, aroundL, mapN_around f k, mapNL_around f ks]
end

mutual
theorem fst_around {α : Type} : ∀ (n : Node (α × Marks)) (c : Around), mapN Prod.fst (around c n) = forget n
  | .text s, _ => rfl
  | .br, _ => rfl
  | .elem x kids, c => by
    have := fst_aroundL kids (c.enter x.2)
    simp only [forgetL] at this
    simp only [forget, mapN, around, this]
theorem fst_aroundL {α : Type} : ∀ (ns : List (Node (α × Marks))) (c : Around), mapNL Prod.fst (aroundL c ns) = forgetL ns
  | [], _ => rfl
  | k :: ks, c => by
    have h1 := fst_around k c
    have h2 := fst_aroundL ks c
    simp only [forget, forgetL] at h1 h2
    simp only [forgetL, mapNL, aroundL, h1, h2]
end

/-- What holds in each leaf. -/
def leafArounds {α : Type} (kd : α → Kind) (c : Around) (n : Node (α × Marks)) : List Around :=
  (leaves (fun x => kd x.1) (around c n)).map (·.1.2)
def leafAroundsL {α : Type} (kd : α → Kind) (c : Around) (ns : List (Node (α × Marks))) : List Around :=
  (leavesL (fun x => kd x.1) (aroundL c ns)).map (·.1.2)

theorem aroundL_append {α : Type} (c : Around) : ∀ a b : List (Node (α × Marks)), aroundL c (a ++ b) = aroundL c a ++ aroundL c b
  | [], b => rfl
  | k :: ks, b => by rw [List.cons_append, aroundL, aroundL, aroundL_append c ks b, List.cons_append]

theorem leavesL_append {α : Type} (kd : α → Kind) : ∀ a b : List (Node α), leavesL kd (a ++ b) = leavesL kd a ++ leavesL kd b
  | [], b => rfl
  | k :: ks, b => by rw [List.cons_append, leavesL, leavesL, leavesL_append kd ks b, List.append_assoc]

theorem leafAroundsL_append {α : Type} (kd : α → Kind) (c : Around) (a b : List (Node (α × Marks))) :
    leafAroundsL kd c (a ++ b) = leafAroundsL kd c a ++ leafAroundsL kd c b := by
  unfold leafAroundsL
  rw [aroundL_append, leavesL_append, List.map_append]

theorem leafAroundsL_cons {α : Type} (kd : α → Kind) (c : Around) (k : Node (α × Marks)) (ks : List (Node (α × Marks))) :
    leafAroundsL kd c (k :: ks) = leafArounds kd c k ++ leafAroundsL kd c ks := by
  unfold leafAroundsL leafArounds
  rw [aroundL, leavesL, List.map_append]

theorem isSpan_forgetL {α : Type} (kd : α → Kind) (c : Around) (ks : List (Node (α × Marks))) :
    (aroundL c ks).any (isSpan (fun x => kd x.1)) = (forgetL ks).any (isSpan kd) := by
  rw [← fst_aroundL ks c]
  exact (SegHead.leaves_mapN_aux Prod.fst kd (aroundL c ks)).symm

theorem items_aroundL {α : Type} (c : Around) (ks : List (Node (α × Marks))) : items (aroundL c ks) = items (forgetL ks) := by
  rw [← fst_aroundL ks c, items_mapNL]

theorem leafArounds_elem {α : Type} (kd : α → Kind) (c : Around) (x : α × Marks) (kids : List (Node (α × Marks))) :
    leafArounds kd c (.elem x kids) =
      if Leaf kd x.1 (forgetL kids) then (if Visible (items (forgetL kids)) then [c.enter x.2] else [])
      else leafAroundsL kd (c.enter x.2) kids := by
  unfold leafArounds leafAroundsL
  rw [around, leaves]
  have : Leaf (fun x => kd x.1) (x.1, c.enter x.2) (aroundL (c.enter x.2) kids) = Leaf kd x.1 (forgetL kids) := by
    simp only [Leaf, isSpan_forgetL]
  rw [this, items_aroundL]
  split
  · split <;> rfl
  · rfl

theorem leafAroundsL_noElem {α : Type} {kd : α → Kind} {c : Around} : ∀ {ks : List (Node (α × Marks))}, (∀ x kk, Node.elem x kk ∉ forgetL ks) →
    leafAroundsL kd c ks = []
  | [], _ => rfl
  | k :: ks, h => by
    have ih := leafAroundsL_noElem (kd := kd) (c := c) (ks := ks) (fun x kk hm => h x kk (by
      simp only [forgetL, mapNL] at hm ⊢
      exact List.mem_cons_of_mem _ hm))
    rw [leafAroundsL_cons, ih, List.append_nil]
    cases k with
    | text s => rfl
    | br => rfl
    | elem x kk => exact absurd (by simp [forgetL, mapNL, mapN]) (h x.1 (mapNL Prod.fst kk))

mutual
/-- What holds in the leaves all of whose surrounding elements overlap the window. -/
def prunedA (w : Win) (c : Around) : Node (Lab × Marks) → List Around
  | .elem x kids =>
    if inSeg w x.1.comp then
      if Leaf lkind x.1 (forgetL kids) then (if Visible (items (forgetL kids)) then [c.enter x.2] else [])
      else prunedAL w (c.enter x.2) kids
    else []
  | _ => []
def prunedAL (w : Win) (c : Around) : List (Node (Lab × Marks)) → List Around
  | [] => []
  | k :: ks => prunedA w c k ++ prunedAL w c ks
end

/-- A list of children without elements is segmented to one without elements. -/
theorem segList_noElem {v : Env} : ∀ {kids : List (Node Lab)} {ks : List (Node Att)}, Doc.segList v kids = .ok ks →
    (∀ x kk, Node.elem x kk ∉ eraseL kids) → ∀ x kk, Node.elem x kk ∉ ks := by
  intro kids
  induction kids with
  | nil => intro ks h _; simp only [Doc.segList, Except.ok.injEq] at h; rw [← h]; simp
  | cons k kids ih =>
    intro ks h hno
    obtain ⟨o, rest, ho, hr, rfl⟩ := Doc.segList_cons h
    intro y yy hy
    rcases List.mem_append.mp hy with hy | hy
    · cases o with
      | none => simp at hy
      | some m =>
        simp only [Option.toList, List.mem_singleton] at hy
        subst hy
        rcases Doc.segNode_kind ho with ⟨s, _, h⟩ | ⟨_, h⟩ | ⟨z, kk, b, k2, rfl, h, _⟩
        · simp at h
        · simp at h
        · exact hno z.att (eraseL kk) (by simp [eraseL, erase])
    · exact ih hr (fun z zz hz => hno z zz (by simp [eraseL, hz])) y yy hy

mutual
theorem seg_arounds {v : Env} : ∀ (n : Node (Lab × Marks)) (o : Option (Node (Att × Marks))) (c : Around), segNode v n = .ok o →
    Marked lkind n → shaped (erase (forget n)) = true → unmixed (erase (forget n)) = true →
    leafAroundsL Att.kind c o.toList = prunedA v.win c n
  | .text s, o, c, h, _, _, _ => by
    simp only [segNode, Except.ok.injEq] at h
    subst h
    rfl
  | .br, o, c, h, _, _, _ => by
    simp only [segNode, Except.ok.injEq] at h
    subst h
    rfl
  | .elem x kids, o, c, h, hm, hs, hu => by
    rw [Marked] at hm
    simp only [forget, mapN, erase, shaped, unmixed, Bool.and_eq_true] at hs hu
    rw [prunedA]
    rcases segNode_elem h with ⟨hin, rfl⟩ | ⟨hin, a, ks, ha, hks, hcase⟩
    · rw [if_neg (by simp [hin])]
      rfl
    · rw [if_pos hin]
      have ih := segL_arounds kids ks (c.enter x.2) hks hm.2 hs.2 hu.2
      have hks' : Doc.segList v (forgetL kids) = .ok (forgetL ks) := by rw [forget_segList, hks]; rfl
      have hf := Doc.segList_fits hks' hs.1
      have hit : items (forgetL ks) = items (forgetL kids) := Doc.segList_items hks'
      have htx : Doc.textsOk (items (forgetL ks)) = true := by
        rw [hit, ← Doc.items_eraseL]; exact Doc.textsOk_shaped hs.2
      have hsp : (eraseL (forgetL kids)).any (isSpan Att.kind) = (forgetL kids).any (isSpan lkind) := Doc.isSpan_eraseL (forgetL kids)
      have hkind : ∀ a', Doc.leafTiming v x.1.comp a (forgetL ks) = .ok a' → a'.kind = x.1.att.kind := by
        intro a' ha'
        rw [(Doc.leafTiming_kind ha').1, Doc.copyAtt_kind ha]
      by_cases hk : x.1.att.kind = .p ∨ x.1.att.kind = .span
      · rw [Doc.isEmpty_leafy hk htx] at hcase
        by_cases hl : (forgetL kids).any (isSpan lkind) = true
        · have hleaf : Leaf lkind x.1 (forgetL kids) = false := by simp [Leaf, hl]
          rw [if_neg (by simp [hleaf])]
          have hvis : Visible (items (forgetL ks)) = false := by
            rw [hit, ← Doc.items_eraseL]
            have := hu.1
            rw [hsp, hl] at this
            simpa using this
          rcases hcase with ⟨he, rfl⟩ | ⟨he, a', ha', rfl⟩
          · rw [hvis] at he
            simp only [Bool.not_false, Bool.true_and, Bool.not_eq_true'] at he
            rw [leafAroundsL_noElem (Doc.noElem_of_noSpan hk hf he)] at ih
            exact ih
          · rw [hvis] at he
            simp only [Bool.not_false, Bool.true_and, Bool.not_eq_false'] at he
            have hleaf' : Leaf Att.kind a' (forgetL ks) = false := by simp [Leaf, he]
            simp only [Option.toList]
            rw [leafAroundsL_cons, leafArounds_elem, if_neg (by simp [hleaf']), enter_copy hm.1, ih]
            exact List.append_nil _
        · have hl : (forgetL kids).any (isSpan lkind) = false := by simpa using hl
          have hleaf : Leaf lkind x.1 (forgetL kids) = true := by
            rcases hk with hk | hk <;> simp [Leaf, hl, lkind, hk]
          rw [if_pos hleaf]
          have hne := Doc.noElem_of_noSpan hk hs.1 (by rw [hsp]; exact hl)
          have hno := segList_noElem hks' hne
          have hns : (forgetL ks).any (isSpan Att.kind) = false := by
            rw [Bool.eq_false_iff]
            intro hc
            obtain ⟨m, hmem, hms⟩ := List.any_eq_true.mp hc
            cases m with
            | elem z zz => exact hno z zz hmem
            | text s => simp [isSpan] at hms
            | br => simp [isSpan] at hms
          rcases hcase with ⟨he, rfl⟩ | ⟨he, a', ha', rfl⟩
          · rw [hns, hit] at he
            simp only [Bool.not_false, Bool.and_true, Bool.not_eq_true'] at he
            rw [if_neg (by simp [he])]
            rfl
          · rw [hns, hit] at he
            simp only [Bool.not_false, Bool.and_true, Bool.not_eq_false'] at he
            rw [if_pos he]
            have hleaf' : Leaf Att.kind a' (forgetL ks) = true := by
              rcases hk with hk | hk <;> simp [Leaf, hns, hkind a' ha', hk]
            simp only [Option.toList]
            rw [leafAroundsL_cons, leafArounds_elem, if_pos hleaf', hit, if_pos he, enter_copy hm.1]
            rfl
      · have hleaf : Leaf lkind x.1 (forgetL kids) = false := by
          simp only [not_or] at hk; simp [Leaf, lkind, hk.1, hk.2]
        rw [if_neg (by simp [hleaf])]
        rcases hcase with ⟨he, rfl⟩ | ⟨he, a', ha', rfl⟩
        · have hd : x.1.att.kind = .div := by
            cases hkd : x.1.att.kind <;> simp_all [Doc.isEmpty]
          rw [hd] at he hf
          rw [leafAroundsL_noElem (Doc.noElem_of_emptyDiv hf he)] at ih
          exact ih
        · have hleaf' : Leaf Att.kind a' (forgetL ks) = false := by
            simp only [not_or] at hk; simp [Leaf, hkind a' ha', hk.1, hk.2]
          simp only [Option.toList]
          rw [leafAroundsL_cons, leafArounds_elem, if_neg (by simp [hleaf']), enter_copy hm.1, ih]
          exact List.append_nil _
theorem segL_arounds {v : Env} : ∀ (ns : List (Node (Lab × Marks))) (out : List (Node (Att × Marks))) (c : Around), segList v ns = .ok out →
    MarkedL lkind ns → shapedL (eraseL (forgetL ns)) = true → unmixedL (eraseL (forgetL ns)) = true →
    leafAroundsL Att.kind c out = prunedAL v.win c ns
  | [], out, c, h, _, _, _ => by
    simp only [segList, Except.ok.injEq] at h
    subst h
    rfl
  | k :: ks, out, c, h, hm, hs, hu => by
    obtain ⟨o, rest, ho, hr, rfl⟩ := segList_cons h
    rw [MarkedL] at hm
    simp only [forgetL, mapNL, eraseL, shapedL, unmixedL, Bool.and_eq_true] at hs hu
    rw [leafAroundsL_append, prunedAL, seg_arounds k o c ho hm.1 hs.1 hu.1, segL_arounds ks rest c hr hm.2 hs.2 hu.2]
end

theorem leaves_around {α : Type} (kd : α → Kind) (c : Around) (n : Node (α × Marks)) :
    leaves kd (forget n) = (leaves (fun x => kd x.1) (around c n)).map (fun l => (l.1.1, l.2)) := by
  rw [← fst_around n c, leaves_mapN]

mutual
theorem prunedA_eq {w : Win} : ∀ (n : Node (Lab × Marks)) (c : Around), Cov (forget n) →
    prunedA w c n = ((leaves (fun x => lkind x.1) (around c n)).filter (fun l => Overlaps w l.1.1.comp)).map (·.1.2)
  | .text s, _, _ => rfl
  | .br, _, _ => rfl
  | .elem x kids, c, h => by
    by_cases hin : inSeg w x.1.comp = true
    · rw [prunedA, if_pos hin, around, leaves]
      have : Leaf (fun x => lkind x.1) (x.1, c.enter x.2) (aroundL (c.enter x.2) kids) = Leaf lkind x.1 (forgetL kids) := by
        simp only [Leaf, isSpan_forgetL]
      rw [this, items_aroundL]
      by_cases hl : Leaf lkind x.1 (forgetL kids) = true
      · rw [if_pos hl, if_pos hl]
        by_cases hv : Visible (items (forgetL kids)) = true
        · rw [if_pos hv, if_pos hv]
          rw [Doc.inSeg_eq] at hin
          simp [hin]
        · rw [if_neg hv, if_neg hv]; rfl
      · rw [if_neg hl, if_neg hl]
        exact prunedAL_eq kids _ (fun k hk => h.kid hk)
    · have hp : Doc.pruned w (forget (.elem x kids)) = [] := by
        simp only [forget, mapN]
        rw [Doc.pruned, if_neg hin]
      rw [Doc.pruned_eq _ h, Doc.leavesOf, leaves_around lkind c, List.filter_map, List.map_eq_nil_iff] at hp
      rw [prunedA, if_neg hin]
      have hp' : (leaves (fun x => lkind x.1) (around c (.elem x kids))).filter (fun l => Overlaps w l.1.1.comp) = [] := hp
      rw [hp']
      rfl
theorem prunedAL_eq {w : Win} : ∀ (ns : List (Node (Lab × Marks))) (c : Around), (∀ k ∈ forgetL ns, Cov k) →
    prunedAL w c ns = ((leavesL (fun x => lkind x.1) (aroundL c ns)).filter (fun l => Overlaps w l.1.1.comp)).map (·.1.2)
  | [], _, _ => rfl
  | k :: ks, c, h => by
    rw [prunedAL, aroundL, leavesL, List.filter_append, List.map_append,
      prunedA_eq k c (h _ (by simp [forgetL, mapNL])),
      prunedAL_eq ks c (fun k' hk' => h k' (by simp only [forgetL, mapNL]; exact List.mem_cons_of_mem _ hk'))]
end

/-- Two lists that correspond in two respects. -/
theorem shown_pairs {α β γ δ : Type} {R : α → β → Prop} : ∀ {A : List (α × γ)} {B : List (β × γ)}
    (_ : List.Forall₂ R (A.map (·.1)) (B.map (·.1))) (_ : A.map (·.2) = B.map (·.2)) {p : α → Bool} {q : β → Bool} {f : α → δ} {g : β → δ}
    (_ : ∀ a b, R a b → p a = q b ∧ f a = g b),
    (A.filter (fun x => p x.1)).map (fun x => (f x.1, x.2)) = (B.filter (fun x => q x.1)).map (fun x => (g x.1, x.2))
  | [], [], _, _, _, _, _, _, _ => rfl
  | [], b :: B, h, _, _, _, _, _, _ => by cases h
  | a :: A, [], h, _, _, _, _, _, _ => by cases h
  | a :: A, b :: B, h, e, p, q, f, g, hR => by
    cases h with
    | cons h1 h2 =>
      simp only [List.map_cons, List.cons.injEq] at e
      obtain ⟨r1, r2⟩ := hR _ _ h1
      have ih := shown_pairs h2 e.2 hR
      rw [List.filter_cons, List.filter_cons, r1]
      split
      · rw [List.map_cons, List.map_cons, r2, e.1, ih]
      · exact ih

mutual
theorem marked_attOf : ∀ (n : Node (Lab × Marks)), Marked Att.kind (mapN attOf n) → Marked lkind n
  | .text s, _ => trivial
  | .br, _ => trivial
  | .elem x kids, h => by
    rw [mapN, Marked] at h
    exact ⟨h.1, markedL_attOf kids h.2⟩
theorem markedL_attOf : ∀ (ns : List (Node (Lab × Marks))), MarkedL Att.kind (mapNL attOf ns) → MarkedL lkind ns
  | [], _ => trivial
  | k :: ks, h => by
    rw [mapNL, MarkedL] at h
    exact ⟨marked_attOf k h.1, markedL_attOf ks h.2⟩
end

/-! ### The theorem -/

/-- **C109**: a segment, validated as a document of its own, shows at every instant of the window what the document shows
then, each piece with the same language, white space handling, agents and roles around it, and outside the window nothing.
The assumptions are those of `C24_segment_shows_the_same_partial` on the written document and its window. -/
theorem C109_at_each_instant_partial (v : Env) (hrd : v.rd.Accurate) (hbase : v.base ≠ .smpte) (avail : Int) (ha : 0 ≤ avail)
    (d : MDoc Att) (hspace : d.space = none) (hmk : Marked Att.kind d.body)
    (hs : Sane (forget d.body)) (hsh : shaped (forget d.body) = true) (hmix : unmixed (forget d.body) = true)
    (hw : wellTimed (forget d.body) = true) (hms : inMs (forget d.body) = true) (hams : avail % 1000 = 0)
    (hwms : ∀ t, v.win.b = some t ∨ v.win.e = some t → t % 1000 = 0)
    (doc : MDoc Lab) (hdoc : validate avail d = .ok doc) (seg : MDoc Att) (hseg : segmentDoc v doc = .ok seg) :
    ∃ segdoc, validate 0 seg = .ok segdoc ∧ ∀ t, segdoc.shownAt t = if v.win.at t then doc.shownAt t else [] := by
  obtain ⟨segdoc, hval⟩ : ∃ segdoc, validate 0 seg = .ok segdoc := by
    unfold validate
    rw [Doc.validateDoc_eq]
    exact ⟨_, rfl⟩
  refine ⟨segdoc, hval, ?_⟩
  obtain ⟨l1, s1, f1, m1⟩ := validate_ok hdoc
  obtain ⟨l2, s2, f2, m2⟩ := validate_ok hval
  unfold segmentDoc at hseg
  obtain ⟨body, hb, hseg⟩ := bind_ok hseg
  simp only [pure, Except.pure, Except.ok.injEq] at hseg
  subst hseg
  simp only at l2 s2 f2 m2
  have herase : erase (forget doc.body) = forget d.body := by rw [f1, erase_times]
  have hmk' : Marked lkind doc.body := by
    exact marked_attOf _ (by rw [m1]; exact hmk)
  have hcov : Cov (forget doc.body) := by rw [f1]; exact Doc.cov_times hs hw
  -- content and times
  have hseg' : Doc.segment v (forget doc.body) = .ok (forget body) := by rw [forget_segment, hb]; rfl
  have hall := Doc.segment_instants v hrd hbase avail ha (forget d.body) hs hsh hmix hw hms hams hwms (forget doc.body)
    (by rw [Doc.validateDoc_eq, f1]) (forget body) hseg'
  rw [← f2] at hall
  generalize hc : outer doc.lang doc.space = c
  have hc2 : outer segdoc.lang segdoc.space = c := by rw [← hc, l2, s2, s1, hspace]
  -- what holds around
  have harounds : leafArounds Att.kind c body = prunedA v.win c doc.body := by
    have hb' := hb
    unfold segment at hb'
    obtain ⟨o, ho, hb'⟩ := bind_ok hb'
    have := seg_arounds doc.body o c ho hmk' (by rw [herase]; exact hsh) (by rw [herase]; exact hmix)
    rw [← this]
    match o, hb' with
    | some (.elem a []), hb' =>
      simp only at hb'
      obtain ⟨b, _, hb'⟩ := bind_ok hb'
      obtain ⟨e, _, hb'⟩ := bind_ok hb'
      simp only [pure, Except.pure, Except.ok.injEq] at hb'
      rw [← hb']
      simp only [Option.toList]
      rw [leafAroundsL_cons, leafArounds_elem, leafArounds_elem]
      exact (List.append_nil _).symm
    | some (.elem a (k :: ks)), hb' =>
      simp only [pure, Except.pure, Except.ok.injEq] at hb'
      rw [← hb']
      simp only [Option.toList]
      rw [leafAroundsL_cons]
      exact (List.append_nil _).symm
    | some (.text s), hb' =>
      simp only [pure, Except.pure, Except.ok.injEq] at hb'
      rw [← hb']
      rfl
    | some .br, hb' =>
      simp only [pure, Except.pure, Except.ok.injEq] at hb'
      rw [← hb']
      rfl
    | none, hb' => simp [throw, throwThe, MonadExceptOf.throw] at hb'
  have hbody : leafArounds Att.kind c body = leafArounds lkind c segdoc.body := by
    unfold leafArounds
    rw [← m2, mapN_around Lab.att, leaves_mapN, List.map_map]
    rfl
  rw [hbody, prunedA_eq _ c hcov] at harounds
  intro t
  unfold MDoc.shownAt
  rw [hc, hc2]
  -- put together
  have hL : (Doc.leavesOf (forget doc.body)).filter (fun l => Overlaps v.win l.1.comp) =
      ((leaves (fun x => lkind x.1) (around c doc.body)).filter (fun l => Overlaps v.win l.1.1.comp)).map (fun l => (l.1.1, l.2)) := by
    rw [Doc.leavesOf, leaves_around lkind c, List.filter_map]
    rfl
  have hS : Doc.leavesOf (forget segdoc.body) = (leaves (fun x => lkind x.1) (around c segdoc.body)).map (fun l => (l.1.1, l.2)) := by
    rw [Doc.leavesOf, leaves_around lkind c]
  rw [hL, hS] at hall
  have hout : ∀ l : (Lab × Around) × List Item, v.win.at t = true → l.1.1.comp.at t = true → Overlaps v.win l.1.1.comp = true := by
    intro l hin hat
    unfold Overlaps
    unfold Win.at at hin
    unfold Comp.at at hat
    cases hwb : v.win.b <;> cases hwe : v.win.e <;> cases hce : l.1.1.comp.e <;> simp_all <;> omega
  clear hL hS hbody
  unfold leafArounds at harounds
  generalize leaves (fun x => lkind x.1) (around c segdoc.body) = S at hall harounds
  generalize leaves (fun x => lkind x.1) (around c doc.body) = L at hall harounds
  have h1 := shown_pairs (α := Lab × List Item) (β := Lab × List Item) (γ := Around)
    (A := (L.filter (fun l => Overlaps v.win l.1.1.comp)).map (fun l => ((l.1.1, l.2), l.1.2)))
    (B := S.map (fun l => ((l.1.1, l.2), l.1.2)))
    (R := fun l s => s.2 = l.2 ∧ ∀ t, s.1.comp.at t = (v.win.at t && l.1.comp.at t))
    (by simpa only [List.map_map, Function.comp_def] using hall)
    (by simpa only [List.map_map, Function.comp_def] using harounds.symm)
    (p := fun l => v.win.at t && l.1.comp.at t) (q := fun l => l.1.comp.at t) (f := fun l => l.2) (g := fun l => l.2)
    (fun a b hR => ⟨(hR.2 t).symm, hR.1.symm⟩)
  simp only [List.filter_map, List.map_map, List.filter_filter, Function.comp_def] at h1
  rw [← h1]
  by_cases hin : v.win.at t = true
  · rw [if_pos hin]
    congr 1
    apply List.filter_congr
    intro l _
    rw [hin, Bool.true_and]
    by_cases hat : l.1.1.comp.at t = true
    · rw [hat, hout l hin hat]; rfl
    · simp [hat]
  · rw [if_neg hin]
    simp [hin]

end Verif.Mark
