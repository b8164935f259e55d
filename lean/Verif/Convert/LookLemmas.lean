import Verif.Convert.LookSpec

/-! Lemmas: the leaves of a document and of its conversion, one by one. -/
namespace Verif.Convert

open Verif.Doc hiding Name
open Verif.Style Verif.Time
open Verif.SegHead (mapN mapNL HDoc Full)

/-! ### Leaves with their positions -/

mutual
/-- The leaves that show something, each with its position and the elements around it, itself included. -/
def leafPos {α : Type} (kd : α → Kind) : Node α → List (List Nat × List α × List Item)
  | .elem a kids =>
    if Leaf kd a kids then (if Visible (items kids) then [([], [a], items kids)] else [])
    else (leafPosL kd 0 kids).map (fun l => (l.1, a :: l.2.1, l.2.2))
  | _ => []
def leafPosL {α : Type} (kd : α → Kind) : Nat → List (Node α) → List (List Nat × List α × List Item)
  | _, [] => []
  | i, k :: ks => (leafPos kd k).map (fun l => (i :: l.1, l.2)) ++ leafPosL kd (i + 1) ks
end

mutual
theorem pathLeaves_pos : ∀ n : Node Att, pathLeaves n = (leafPos Att.kind n).map (·.2)
  | .text _ => rfl
  | .br => rfl
  | .elem a kids => by
    rw [pathLeaves, leafPos]
    split
    · split <;> rfl
    · rw [pathLeavesL_pos 0 kids, List.map_map, List.map_map]; rfl
theorem pathLeavesL_pos : ∀ (i : Nat) (ks : List (Node Att)), pathLeavesL ks = (leafPosL Att.kind i ks).map (·.2)
  | _, [] => rfl
  | i, k :: ks => by
    rw [pathLeavesL, leafPosL, List.map_append, pathLeaves_pos k, pathLeavesL_pos (i + 1) ks, List.map_map]; rfl
end

mutual
theorem leaves_pos {α : Type} (kd : α → Kind) : ∀ n : Node α, (leaves kd n).map (fun l => (some l.1, l.2)) =
    (leafPos kd n).map (fun l => (l.2.1.getLast?, l.2.2))
  | .text _ => rfl
  | .br => rfl
  | .elem a kids => by
    rw [leaves, leafPos]
    split
    · split <;> rfl
    · rw [leavesL_pos kd 0 kids, List.map_map]
      apply List.map_congr_left
      intro l hl
      simp only [Function.comp_apply]
      rw [List.getLast?_cons]
      have := leafPosL_ne kd 0 kids l hl
      cases h : l.2.1.getLast? with
      | none => rw [List.getLast?_eq_none_iff] at h; exact absurd h this
      | some x => rfl
theorem leavesL_pos {α : Type} (kd : α → Kind) : ∀ (i : Nat) (ks : List (Node α)), (leavesL kd ks).map (fun l => (some l.1, l.2)) =
    (leafPosL kd i ks).map (fun l => (l.2.1.getLast?, l.2.2))
  | _, [] => rfl
  | i, k :: ks => by
    rw [leavesL, leafPosL, List.map_append, List.map_append, leaves_pos kd k, leavesL_pos kd (i + 1) ks, List.map_map]; rfl
theorem leafPos_ne {α : Type} (kd : α → Kind) : ∀ (n : Node α), ∀ l ∈ leafPos kd n, l.2.1 ≠ []
  | .text _, l, h => by simp [leafPos] at h
  | .br, l, h => by simp [leafPos] at h
  | .elem a kids, l, h => by
    rw [leafPos] at h
    split at h
    · split at h
      · simp only [List.mem_singleton] at h; rw [h]; simp
      · simp at h
    · obtain ⟨q, _, rfl⟩ := List.mem_map.mp h
      simp
theorem leafPosL_ne {α : Type} (kd : α → Kind) : ∀ (i : Nat) (ks : List (Node α)), ∀ l ∈ leafPosL kd i ks, l.2.1 ≠ []
  | _, [], l, h => by simp [leafPosL] at h
  | i, k :: ks, l, h => by
    rw [leafPosL, List.mem_append] at h
    rcases h with h | h
    · obtain ⟨q, hq, rfl⟩ := List.mem_map.mp h
      exact leafPos_ne kd k q hq
    · exact leafPosL_ne kd (i + 1) ks l h
end

mutual
/-- A position is that of the leaf, and the elements are those around it. -/
theorem leafPos_pick {α : Type} (kd : α → Kind) : ∀ (n : Node α), ∀ l ∈ leafPos kd n, ∃ anc x kids, pick n l.1 = some (anc, .elem x kids) ∧
    l.2.1 = anc ++ [x] ∧ Leaf kd x kids = true
  | .text _, l, h => by simp [leafPos] at h
  | .br, l, h => by simp [leafPos] at h
  | .elem a kids, l, h => by
    rw [leafPos] at h
    split at h
    · rename_i hl
      split at h
      · simp only [List.mem_singleton] at h
        rw [h]
        exact ⟨[], a, kids, rfl, rfl, hl⟩
      · simp at h
    · obtain ⟨q, hq, rfl⟩ := List.mem_map.mp h
      obtain ⟨j, k, p, h1, h2, anc, x, ks, h3, h4, h5⟩ := leafPosL_pick kd 0 kids q hq
      refine ⟨a :: anc, x, ks, ?_, by simp [h4], h5⟩
      simp only
      rw [h2, Nat.zero_add, pick, h1]
      simp only [h3, Option.map_some]
theorem leafPosL_pick {α : Type} (kd : α → Kind) : ∀ (i : Nat) (ks : List (Node α)), ∀ l ∈ leafPosL kd i ks, ∃ j k p, ks[j]? = some k ∧
    l.1 = (i + j) :: p ∧ ∃ anc x kids, pick k p = some (anc, .elem x kids) ∧ l.2.1 = anc ++ [x] ∧ Leaf kd x kids = true
  | _, [], l, h => by simp [leafPosL] at h
  | i, k :: ks, l, h => by
    rw [leafPosL, List.mem_append] at h
    rcases h with h | h
    · obtain ⟨q, hq, rfl⟩ := List.mem_map.mp h
      exact ⟨0, k, q.1, rfl, rfl, leafPos_pick kd k q hq⟩
    · obtain ⟨j, k', p, h1, h2, h3⟩ := leafPosL_pick kd (i + 1) ks l h
      exact ⟨j + 1, k', p, h1, by rw [h2]; congr 1; omega, h3⟩
end

theorem any_isSpan_mapN {α β : Type} (f : α → β) (kd : β → Kind) (ks : List (Node α)) :
    (mapNL f ks).any (isSpan kd) = ks.any (isSpan (fun x => kd (f x))) := SegHead.leaves_mapN_aux f kd ks

theorem items_mapN {α β : Type} (f : α → β) : ∀ ks : List (Node α), items (mapNL f ks) = items ks
  | [] => rfl
  | k :: ks => by cases k <;> simp [mapNL, mapN, items, items_mapN f ks]

mutual
theorem leafPos_mapN {α β : Type} (f : α → β) (kd : β → Kind) : ∀ n : Node α,
    leafPos kd (mapN f n) = (leafPos (fun x => kd (f x)) n).map (fun l => (l.1, l.2.1.map f, l.2.2))
  | .text _ => rfl
  | .br => rfl
  | .elem a kids => by
    rw [mapN, leafPos, leafPos]
    have : Leaf kd (f a) (mapNL f kids) = Leaf (fun x => kd (f x)) a kids := by
      simp only [Leaf, any_isSpan_mapN]
    rw [this, items_mapN]
    split
    · split <;> rfl
    · rw [leafPosL_mapN f kd 0 kids, List.map_map, List.map_map]
      apply List.map_congr_left
      intro l _
      simp
theorem leafPosL_mapN {α β : Type} (f : α → β) (kd : β → Kind) : ∀ (i : Nat) (ks : List (Node α)),
    leafPosL kd i (mapNL f ks) = (leafPosL (fun x => kd (f x)) i ks).map (fun l => (l.1, l.2.1.map f, l.2.2))
  | _, [] => rfl
  | i, k :: ks => by
    rw [mapNL, leafPosL, leafPosL, List.map_append, leafPos_mapN f kd k, leafPosL_mapN f kd (i + 1) ks, List.map_map, List.map_map]; rfl
end

/-- Positions and contents of the leaves depend on the kinds of elements only. -/
theorem leafPos_same {α β : Type} {f : α → Kind} {g : β → Kind} {n : Node α} {n' : Node β} (h : mapN f n = mapN g n') :
    (leafPos f n).map (fun l => (l.1, l.2.2)) = (leafPos g n').map (fun l => (l.1, l.2.2)) := by
  have h1 := leafPos_mapN f id n
  have h2 := leafPos_mapN g id n'
  rw [h] at h1
  rw [h1] at h2
  have := congrArg (fun x => x.map (fun l : List Nat × List Kind × List Item => (l.1, l.2.2))) h2
  simpa [List.map_map, Function.comp_def] using this

mutual
theorem same_kinds {m : Media} {nm : Rat → Name} {sh : Convert.Sheet} : ∀ {n : Node PLab} {n' : Node Att}, Same m nm sh n n' →
    mapN Att.kind n' = mapN (fun x : PLab => x.att.kind) n
  | .text s, n', h => by rw [Same] at h; subst h; rfl
  | .br, n', h => by rw [Same] at h; subst h; rfl
  | .elem x ks, n', h => by
    rw [Same] at h
    obtain ⟨a, ks', h1, h2, _, h4⟩ := h
    rw [h1, mapN, mapN, sameL_kinds h4, (convAtt_ok h2).1]
theorem sameL_kinds {m : Media} {nm : Rat → Name} {sh : Convert.Sheet} {parent : PLab} : ∀ {ks : List (Node PLab)} {ks' : List (Node Att)},
    SameL m nm sh parent ks ks' → mapNL Att.kind ks' = mapNL (fun x : PLab => x.att.kind) ks
  | [], ks', h => by rw [SameL] at h; subst h; rfl
  | k :: ks, ks', h => by
    rw [SameL] at h
    obtain ⟨k0, o, ks1, h1, h2, _, h4⟩ := h
    rw [h1, mapNL, mapNL, sameL_kinds h4, ← same_kinds h2]
    congr 1
    cases k0 <;> rfl
end

/-! ### Times, leaf by leaf -/

theorem forall₂_map {α β γ δ : Type} {R : γ → δ → Prop} {f : α → γ} {g : β → δ} : ∀ {l : List α} {m : List β},
    List.Forall₂ (fun a b => R (f a) (g b)) l m → List.Forall₂ R (l.map f) (m.map g)
  | _, _, .nil => .nil
  | _, _, .cons h t => .cons h (forall₂_map t)

theorem forall₂_trans {α β γ : Type} {R : α → β → Prop} {S : β → γ → Prop} {T : α → γ → Prop}
    (hT : ∀ a b c, R a b → S b c → T a c) : ∀ {l : List α} {m : List β} {k : List γ},
    List.Forall₂ R l m → List.Forall₂ S m k → List.Forall₂ T l k
  | _, _, _, .nil, .nil => .nil
  | _, _, _, .cons h1 t1, .cons h2 t2 => .cons (hT _ _ _ h1 h2) (forall₂_trans hT t1 t2)

/-- The same relation with what is known of the second list's members. -/
theorem forall₂_mem {α β : Type} {R : α → β → Prop} : ∀ {l : List α} {m : List β}, List.Forall₂ R l m →
    List.Forall₂ (fun a b => R a b ∧ a ∈ l ∧ b ∈ m) l m
  | _, _, .nil => .nil
  | _, _, .cons h t => .cons ⟨h, by simp, by simp⟩ (SegHead.forall₂_imp (fun _ _ q => ⟨q.1, List.mem_cons_of_mem _ q.2.1, List.mem_cons_of_mem _ q.2.2⟩) (forall₂_mem t))

mutual
/-- A leaf is active by its computed times when it is on by the written ones. -/
theorem leaf_on {avail : Int} : ∀ (n : Node Att) (sync : Int) (bound : Option Int), shaped n = true →
    plainTimes n = true → noDur n = true →
    List.Forall₂ (fun (l : Lab × List Item) (q : List Att × List Item) => l.2 = q.2 ∧ ∀ t, avail ≤ t →
        l.1.comp.at t = (bound.all (fun e => decide (t < e)) && on (t - sync) q.1))
      (leaves (fun x : Lab => x.att.kind) (times avail sync bound n)) (pathLeaves n)
  | .text _, _, _, _, _, _ => .nil
  | .br, _, _, _, _, _ => .nil
  | .elem a kids, sync, bound, hs, hp, hd => by
    simp only [shaped, plainTimes, noDur, Bool.and_eq_true] at hs hp hd
    have hdur : a.kind = .body → a.dur = none := by
      intro hk
      have := hd.1
      rw [hk] at this
      simpa using this
    simp only [times, leaves, pathLeaves]
    have hleaf : ∀ c sync bound, Leaf (fun x : Lab => x.att.kind) { att := a, comp := c } (timesL avail sync bound kids) =
        Leaf Att.kind a kids := by
      intro c sync bound
      simp only [Leaf, isSpan_timesL]
    rw [hleaf, items_timesL]
    by_cases hl : Leaf Att.kind a kids = true
    · rw [if_pos hl, if_pos hl]
      by_cases hv : Visible (items kids) = true
      · rw [if_pos hv, if_pos hv]
        have hk : timedKids (timesL avail (sync + (eff a.beg).getD 0) (below (ownEnd avail sync bound a) bound) kids) = [] := by
          apply timedKids_noElem
          intro y ys hy
          simp only [Leaf, Bool.and_eq_true, Bool.or_eq_true, decide_eq_true_eq, Bool.not_eq_true'] at hl
          have hne := noElem_of_noSpan hl.1 hs.1 hl.2
          rw [timesL_eq, List.mem_map] at hy
          obtain ⟨k, hk, hky⟩ := hy
          cases k with
          | text s => simp [times] at hky
          | br => simp [times] at hky
          | elem b bs => exact hne b bs hk
        rw [hk]
        refine .cons ⟨rfl, ?_⟩ .nil
        intro t hav
        have hnb : a.kind ≠ .body := by
          intro e
          simp [Leaf, e] at hl
        have hb := below_ok (avail := avail) (sync := sync) (t := t) (bound := bound) hdur hp.1.2
        have he : (compOf avail sync bound a []).e = below (ownEnd avail sync bound a) bound := by
          simp only [compOf, hnb, false_and, if_false, below]
        have hbeg : decide ((compOf avail sync bound a []).b ≤ t) = decide ((a.beg.map TV.delta).getD 0 ≤ t - sync) := by
          simp only [compOf, hnb, false_and, if_false, postBegin, ite_self, eff_getD]
          rw [Bool.eq_iff_iff]
          simp only [decide_eq_true_eq]
          split <;> omega
        rw [at_eq, hbeg, he, hb]
        simp only [on, Bool.and_true]
        cases decide ((a.beg.map TV.delta).getD 0 ≤ t - sync) <;> cases bound.all (fun e => decide (t < e)) <;> rfl
      · rw [if_neg hv, if_neg hv]; exact .nil
    · rw [if_neg hl, if_neg hl]
      have ih := forall₂_mem (leafL_on (avail := avail) kids (sync + (eff a.beg).getD 0) (below (ownEnd avail sync bound a) bound) hs.2 hp.2 hd.2)
      rw [← List.map_id (leavesL _ _)]
      refine forall₂_map (SegHead.forall₂_imp ?_ ih)
      rintro l q ⟨⟨h1, h2⟩, _, hq⟩
      refine ⟨h1, ?_⟩
      intro t hav
      rw [id, h2 t hav, below_ok hdur hp.1.2, eff_getD]
      simp only [on]
      have e : t - (sync + (a.beg.map TV.delta).getD 0) = t - sync - (a.beg.map TV.delta).getD 0 := by omega
      rw [e]
      have hnn := mem_pathLeavesL hq hp.2 (t - sync - (a.beg.map TV.delta).getD 0)
      cases ho : on (t - sync - (a.beg.map TV.delta).getD 0) q.1 with
      | false => simp
      | true =>
        have h0 := hnn ho
        rw [decide_eq_true (by omega : (a.beg.map TV.delta).getD 0 ≤ t - sync)]
        simp
theorem leafL_on {avail : Int} : ∀ (ns : List (Node Att)) (sync : Int) (bound : Option Int), shapedL ns = true →
    plainTimesL ns = true → noDurL ns = true →
    List.Forall₂ (fun (l : Lab × List Item) (q : List Att × List Item) => l.2 = q.2 ∧ ∀ t, avail ≤ t →
        l.1.comp.at t = (bound.all (fun e => decide (t < e)) && on (t - sync) q.1))
      (leavesL (fun x : Lab => x.att.kind) (timesL avail sync bound ns)) (pathLeavesL ns)
  | [], _, _, _, _, _ => .nil
  | k :: ks, sync, bound, hs, hp, hd => by
    simp only [shapedL, plainTimesL, noDurL, Bool.and_eq_true] at hs hp hd
    rw [timesL, leavesL, pathLeavesL]
    exact forall₂_append (leaf_on k sync bound hs.1 hp.1 hd.1) (leafL_on ks sync bound hs.2 hp.2 hd.2)
end

theorem noDur_of_untimed : ∀ n : Node Att, containersUntimed n = true → noDur n = true := by
  intro n
  induction n using Node.rec (motive_2 := fun ns => containersUntimedL ns = true → noDurL ns = true) with
  | text s => intro _; rfl
  | br => intro _; rfl
  | elem a kids ih =>
    intro h
    simp only [containersUntimed, Bool.and_eq_true, Bool.or_eq_true, decide_eq_true_eq] at h
    simp only [noDur, Bool.and_eq_true, Bool.or_eq_true]
    refine ⟨?_, ih h.2⟩
    rcases h.1 with (h | h) | h
    · left; simp [h]
    · left; simp [h]
    · right
      simp only [untimed, Bool.and_eq_true] at h
      exact h.2
  | nil => rfl
  | cons k ks ih1 ih2 =>
    rename_i h
    simp only [containersUntimedL, Bool.and_eq_true] at h
    simp only [noDurL, Bool.and_eq_true]
    exact ⟨ih1 h.1, ih2 h.2⟩

/-- The leaves of a validated document and those of the converted one: the same contents, on at the same times. -/
theorem leaf_times_conv {m : Media} (hrd : m.rd.Accurate) (hz0 : 0 ≤ m.zero) (hz : m.base = .clock → m.zero % 1000 = 0)
    {avail : Int} {body : Node Att} (hs : shaped body = true) (hp : plainTimes body = true) (hc : containersUntimed body = true)
    (hms : inMs body = true) (h1 : m.base = .clock → beginsOnce body = true) {c out : Node Att} (hcv : conv m body = .ok c)
    (ho : unstyled out = unstyled c) :
    List.Forall₂ (fun (l : Lab × List Item) (q : List Att × List Item) => l.2 = q.2 ∧ ∀ t, avail ≤ t → m.shift ≤ t →
        l.1.comp.at t = on (t - m.shift) q.1) (leavesOf (times avail 0 none body)) (pathLeaves out) := by
  have hA := leaf_on (avail := avail) body 0 none hs hp (noDur_of_untimed body hc)
  have hB := forall₂_mem (conv_leaves hcv)
  have hC : List.Forall₂ (fun (a b : List Att × List Item) => a.2 = b.2 ∧ ∀ t, on t a.1 = on t b.1) (pathLeaves c) (pathLeaves out) := by
    have e : (pathLeaves c).map (fun l => (l.1.map bare, l.2)) = (pathLeaves out).map (fun l => (l.1.map bare, l.2)) := by
      rw [← leaves_unstyled, ← leaves_unstyled, ho]
    have h2 : List.Forall₂ (fun (a b : List Att × List Item) => a = b) ((pathLeaves c).map (fun l => (l.1.map bare, l.2)))
        ((pathLeaves out).map (fun l => (l.1.map bare, l.2))) := by
      rw [e]
      generalize List.map _ (pathLeaves out) = L
      induction L with
      | nil => exact .nil
      | cons x L ih => exact .cons rfl ih
    refine SegHead.forall₂_imp ?_ (SegHead.forall₂_unmap h2)
    intro a b hab
    simp only [Prod.mk.injEq] at hab
    exact ⟨hab.2, fun t => by rw [← on_bare a.1, hab.1, on_bare]⟩
  have hBC : List.Forall₂ (fun (a b : List Att × List Item) => a.2 = b.2 ∧ ∀ t, m.shift ≤ t → on t a.1 = on (t - m.shift) b.1)
      (pathLeaves body) (pathLeaves out) := by
    refine forall₂_trans ?_ hB hC
    rintro a b c ⟨h2, h3, _⟩ h4
    refine ⟨h2.2.trans h4.1, ?_⟩
    intro t ht
    rw [on_conv hrd hz0 hz h2.1 (path_att h3 hc hms) (fun e => path_chain h3 (h1 e)) t ht, h4.2]
  refine forall₂_trans ?_ hA hBC
  intro a b c h2 h3
  refine ⟨h2.1.trans h3.1, ?_⟩
  intro t h4 h5
  rw [h2.2 t h4, ← h3.2 t h5]
  simp

end Verif.Convert
