import Verif.Convert.Spec
import Verif.Doc.SegmentProps

/-! Helper lemmas for the conversion theorems. -/
namespace Verif.Convert

open Verif.Doc Verif.Time

/-! ### Computed and written times -/

mutual
/-- No `dur` on a body. -/
def noDur : Node Att → Bool
  | .elem a kids => (!decide (a.kind = .body) || a.dur.isNone) && noDurL kids
  | _ => true
def noDurL : List (Node Att) → Bool
  | [] => true
  | k :: ks => noDur k && noDurL ks
end

theorem ownEnd_noDur {avail sync : Int} {bound : Option Int} {a : Att} (h : a.kind = .body → a.dur = none) :
    ownEnd avail sync bound a = baseEnd { sync := sync, begs := [], ends := bound.toList, avail := avail } a := by
  unfold ownEnd preEnd
  cases hk : a.kind with
  | body => rw [h hk]; rfl
  | _ => rfl

theorem at_eq (c : Comp) (t : Int) : c.at t = (decide (c.b ≤ t) && c.e.all (fun e => decide (t < e))) := by
  unfold Comp.at
  cases c.e <;> rfl

/-- The bound below an element: its own end and the bound around it. -/
theorem below_ok {avail sync t : Int} {bound : Option Int} {a : Att} (h : a.kind = .body → a.dur = none)
    (hz : a.fin.all (fun v => decide (v.delta ≠ 0)) = true) :
    (below (ownEnd avail sync bound a) bound).all (fun e => decide (t < e)) =
      (bound.all (fun e => decide (t < e)) && a.fin.all (fun e => decide (t - sync < e.delta))) := by
  rw [ownEnd_noDur h]
  unfold baseEnd
  cases hf : a.fin with
  | none => simp [eff, below]
  | some v =>
    rw [hf] at hz
    have hz : v.delta ≠ 0 := by simpa using hz
    simp only [eff, if_neg hz, below]
    cases bound with
    | none =>
      simp only [Option.toList, Option.all_some, Option.all_none, Bool.true_and, decide_eq_decide]
      omega
    | some b =>
      simp only [Option.toList, Option.all_some]
      rw [Bool.eq_iff_iff]
      simp only [decide_eq_true_eq, Bool.and_eq_true]
      omega

theorem eff_getD (o : Option TV) : (eff o).getD 0 = (o.map TV.delta).getD 0 := by
  cases o with
  | none => rfl
  | some v =>
    simp only [eff]
    split
    · rename_i h; simp [h]
    · rfl

mutual
theorem mem_pathLeaves : ∀ {n : Node Att} {l : List Att × List Item}, l ∈ pathLeaves n → plainTimes n = true →
    ∀ s, on s l.1 = true → 0 ≤ s
  | .text _, _, h, _, _, _ => by simp [pathLeaves] at h
  | .br, _, h, _, _, _ => by simp [pathLeaves] at h
  | .elem a kids, l, h, hp, s, ho => by
    simp only [plainTimes, Bool.and_eq_true] at hp
    have key : ∀ p, l.1 = a :: p → 0 ≤ s := by
      intro p e
      rw [e] at ho
      simp only [on, Bool.and_eq_true, decide_eq_true_eq] at ho
      have h1 := ho.1.1
      have : 0 ≤ (a.beg.map TV.delta).getD 0 := by
        cases hb : a.beg with
        | none => simp
        | some v => have := hp.1.1; rw [hb] at this; simpa using this
      omega
    rw [pathLeaves] at h
    split at h
    · split at h
      · simp only [List.mem_singleton] at h; exact key [] (by rw [h])
      · simp at h
    · obtain ⟨l', _, rfl⟩ := List.mem_map.mp h
      exact key _ rfl
theorem mem_pathLeavesL : ∀ {ns : List (Node Att)} {l : List Att × List Item}, l ∈ pathLeavesL ns → plainTimesL ns = true →
    ∀ s, on s l.1 = true → 0 ≤ s
  | [], _, h, _, _, _ => by simp [pathLeavesL] at h
  | k :: ks, l, h, hp, s, ho => by
    simp only [plainTimesL, Bool.and_eq_true] at hp
    rw [pathLeavesL, List.mem_append] at h
    rcases h with h | h
    · exact mem_pathLeaves h hp.1 s ho
    · exact mem_pathLeavesL h hp.2 s ho
end

mutual
/-- The leaves active by computed times are those on by written times. -/
theorem shown_path {avail t : Int} (hav : avail ≤ t) : ∀ (n : Node Att) (sync : Int) (bound : Option Int), shaped n = true →
    plainTimes n = true → noDur n = true →
    ((leaves (fun x : Lab => x.att.kind) (times avail sync bound n)).filter (fun l => l.1.comp.at t)).map (·.2) =
      ((pathLeaves n).filter (fun l => bound.all (fun e => decide (t < e)) && on (t - sync) l.1)).map (·.2)
  | .text _, _, _, _, _, _ => rfl
  | .br, _, _, _, _, _ => rfl
  | .elem a kids, sync, bound, hs, hp, hd => by
    simp only [shaped, plainTimes, noDur, Bool.and_eq_true] at hs hp hd
    have hdur : a.kind = .body → a.dur = none := by
      intro hk
      have := hd.1
      rw [hk] at this
      simpa using this
    simp only [times, leaves, pathLeaves]
    have hleaf : ∀ c sync bound, Leaf (fun x : Lab => x.att.kind) { att := a, comp := c } (timesL avail sync bound kids) =
        Leaf Att.kind a kids := by
      intro c sync bound
      simp only [Leaf, isSpan_timesL]
    rw [hleaf, items_timesL]
    by_cases hl : Leaf Att.kind a kids = true
    · rw [if_pos hl, if_pos hl]
      by_cases hv : Visible (items kids) = true
      · rw [if_pos hv, if_pos hv]
        have hk : timedKids (timesL avail (sync + (eff a.beg).getD 0) (below (ownEnd avail sync bound a) bound) kids) = [] := by
          apply timedKids_noElem
          intro y ys hy
          simp only [Leaf, Bool.and_eq_true, Bool.or_eq_true, decide_eq_true_eq, Bool.not_eq_true'] at hl
          have hne := noElem_of_noSpan hl.1 hs.1 hl.2
          rw [timesL_eq, List.mem_map] at hy
          obtain ⟨k, hk, hky⟩ := hy
          cases k with
          | text s => simp [times] at hky
          | br => simp [times] at hky
          | elem b bs => exact hne b bs hk
        rw [hk]
        have hnb : a.kind ≠ .body := by
          intro e
          simp [Leaf, e] at hl
        have hat : (compOf avail sync bound a []).at t = (bound.all (fun e => decide (t < e)) && on (t - sync) [a]) := by
          have hb := below_ok (avail := avail) (sync := sync) (t := t) (bound := bound) hdur hp.1.2
          have he : (compOf avail sync bound a []).e = below (ownEnd avail sync bound a) bound := by
            simp only [compOf, hnb, false_and, if_false, below]
          have hbeg : decide ((compOf avail sync bound a []).b ≤ t) = decide ((a.beg.map TV.delta).getD 0 ≤ t - sync) := by
            simp only [compOf, hnb, false_and, if_false, postBegin, ite_self, eff_getD]
            rw [Bool.eq_iff_iff]
            simp only [decide_eq_true_eq]
            split <;> omega
          rw [at_eq, hbeg, he, hb]
          simp only [on, Bool.and_true]
          cases decide ((a.beg.map TV.delta).getD 0 ≤ t - sync) <;> cases bound.all (fun e => decide (t < e)) <;> rfl
        rw [List.filter_cons, List.filter_cons, hat]
        simp only [List.filter_nil]
        split <;> rfl
      · rw [if_neg hv, if_neg hv]; rfl
    · rw [if_neg hl, if_neg hl, shownL_path hav kids _ _ hs.2 hp.2 hd.2, List.filter_map, List.map_map]
      have hc : ∀ l ∈ pathLeavesL kids, ((below (ownEnd avail sync bound a) bound).all (fun e => decide (t < e)) &&
          on (t - (sync + (eff a.beg).getD 0)) l.1) =
          ((fun l : List Att × List Item => bound.all (fun e => decide (t < e)) && on (t - sync) l.1) ∘
            (fun l => (a :: l.1, l.2))) l := by
        intro l hl
        rw [below_ok hdur hp.1.2, eff_getD]
        simp only [Function.comp_apply, on]
        have e : t - (sync + (a.beg.map TV.delta).getD 0) = t - sync - (a.beg.map TV.delta).getD 0 := by omega
        rw [e]
        have hnn := mem_pathLeavesL hl hp.2 (t - sync - (a.beg.map TV.delta).getD 0)
        cases ho : on (t - sync - (a.beg.map TV.delta).getD 0) l.1 with
        | false => simp
        | true =>
          have h0 := hnn ho
          rw [decide_eq_true (by omega : (a.beg.map TV.delta).getD 0 ≤ t - sync)]
          simp
      rw [List.filter_congr hc]
      rfl
theorem shownL_path {avail t : Int} (hav : avail ≤ t) : ∀ (ns : List (Node Att)) (sync : Int) (bound : Option Int), shapedL ns = true →
    plainTimesL ns = true → noDurL ns = true →
    ((leavesL (fun x : Lab => x.att.kind) (timesL avail sync bound ns)).filter (fun l => l.1.comp.at t)).map (·.2) =
      ((pathLeavesL ns).filter (fun l => bound.all (fun e => decide (t < e)) && on (t - sync) l.1)).map (·.2)
  | [], _, _, _, _, _ => rfl
  | k :: ks, sync, bound, hs, hp, hd => by
    simp only [shapedL, plainTimesL, noDurL, Bool.and_eq_true] at hs hp hd
    rw [timesL, leavesL, pathLeavesL, List.filter_append, List.map_append, List.filter_append, List.map_append,
      shown_path hav k sync bound hs.1 hp.1 hd.1, shownL_path hav ks sync bound hs.2 hp.2 hd.2]
end

/-! ### Conversion -/

theorem conv_elem {m : Media} {a : Att} {kids : List (Node Att)} {n' : Node Att} (h : conv m (.elem a kids) = .ok n') :
    ∃ a' ks, convL m kids = .ok ks ∧ convAtt m a = .ok a' ∧ ks.all (fitsD a.kind) = true ∧ n' = .elem a' ks := by
  simp only [conv, bind, Except.bind] at h
  cases hk : convL m kids with
  | error e => rw [hk] at h; simp at h
  | ok ks =>
    rw [hk] at h
    simp only at h
    cases ha : convAtt m a with
    | error e => rw [ha] at h; simp at h
    | ok a' =>
      rw [ha] at h
      simp only at h
      split at h
      · rename_i hf
        simp only [pure, Except.pure, Except.ok.injEq] at h
        exact ⟨a', ks, rfl, rfl, hf, h.symm⟩
      · simp [throw, throwThe, MonadExceptOf.throw] at h

theorem convL_cons {m : Media} {k : Node Att} {ks ns' : List (Node Att)} (h : convL m (k :: ks) = .ok ns') :
    ∃ k' ks', conv m k = .ok k' ∧ convL m ks = .ok ks' ∧ ns' = k' :: ks' := by
  simp only [convL, bind, Except.bind] at h
  cases hk : conv m k with
  | error e => rw [hk] at h; simp at h
  | ok k' =>
    rw [hk] at h
    simp only at h
    cases hks : convL m ks with
    | error e => rw [hks] at h; simp at h
    | ok ks' =>
      rw [hks] at h
      simp only [pure, Except.pure, Except.ok.injEq] at h
      exact ⟨k', ks', rfl, rfl, h.symm⟩

/-- What becomes of the attributes. -/
theorem convAtt_ok {m : Media} {a a' : Att} (h : convAtt m a = .ok a') :
    a'.kind = a.kind ∧ a'.dur = none ∧
    ((a.kind = .p ∨ a.kind = .span) → mapTime m a.beg = .ok a'.beg ∧ mapTime m a.fin = .ok a'.fin) ∧
    ((a.kind = .body ∨ a.kind = .div) → a'.beg = none ∧ a'.fin = none) := by
  unfold convAtt at h
  cases hk : a.kind with
  | body =>
    simp only [hk, Except.ok.injEq] at h
    subst h
    simp
  | div =>
    simp only [hk, Except.ok.injEq] at h
    subst h
    simp
  | p =>
    simp only [hk, bind, Except.bind] at h
    cases hb : mapTime m a.beg with
    | error e => rw [hb] at h; simp at h
    | ok b =>
      rw [hb] at h
      simp only at h
      cases he : mapTime m a.fin with
      | error e => rw [he] at h; simp at h
      | ok e =>
        rw [he] at h
        simp only [pure, Except.pure, Except.ok.injEq] at h
        subst h
        simp
  | span =>
    simp only [hk, bind, Except.bind] at h
    cases hb : mapTime m a.beg with
    | error e => rw [hb] at h; simp at h
    | ok b =>
      rw [hb] at h
      simp only at h
      cases he : mapTime m a.fin with
      | error e => rw [he] at h; simp at h
      | ok e =>
        rw [he] at h
        simp only [pure, Except.pure, Except.ok.injEq] at h
        subst h
        simp

theorem conv_isSpan {m : Media} : ∀ {ns ns' : List (Node Att)}, convL m ns = .ok ns' →
    ns'.any (isSpan Att.kind) = ns.any (isSpan Att.kind) ∧ items ns' = items ns
  | [], ns', h => by simp only [convL, Except.ok.injEq] at h; subst h; exact ⟨rfl, rfl⟩
  | k :: ks, ns', h => by
    obtain ⟨k', ks', hk, hks, rfl⟩ := convL_cons h
    obtain ⟨h1, h2⟩ := conv_isSpan hks
    cases k with
    | text s =>
      simp only [conv, Except.ok.injEq] at hk
      subst hk
      simp only [List.any_cons, h1, isSpan, items, h2, and_self]
    | br =>
      simp only [conv, Except.ok.injEq] at hk
      subst hk
      simp only [List.any_cons, h1, isSpan, items, h2, and_self]
    | elem a kids =>
      obtain ⟨a', kk, _, ha, _, rfl⟩ := conv_elem hk
      simp only [List.any_cons, h1, isSpan, items, h2, (convAtt_ok ha).1, and_self]

/-- A converted leaf: the same content, inside converted elements. -/
def Conv (m : Media) (l l' : List Att × List Item) : Prop :=
  List.Forall₂ (fun a a' => convAtt m a = .ok a') l.1 l'.1 ∧ l.2 = l'.2

theorem Conv.map {m : Media} {a a' : Att} (h : convAtt m a = .ok a') : ∀ {A B : List (List Att × List Item)},
    List.Forall₂ (Conv m) A B → List.Forall₂ (Conv m) (A.map (fun l => (a :: l.1, l.2))) (B.map (fun l => (a' :: l.1, l.2)))
  | _, _, .nil => .nil
  | _, _, .cons h1 h2 => .cons ⟨.cons h h1.1, h1.2⟩ (Conv.map h h2)

theorem forall₂_append {α β : Type} {R : α → β → Prop} : ∀ {A B A' B'}, List.Forall₂ R A B → List.Forall₂ R A' B' →
    List.Forall₂ R (A ++ A') (B ++ B')
  | _, _, _, _, .nil, h => h
  | _, _, _, _, .cons h1 h2, h => .cons h1 (forall₂_append h2 h)

mutual
theorem conv_leaves {m : Media} : ∀ {n n' : Node Att}, conv m n = .ok n' → List.Forall₂ (Conv m) (pathLeaves n) (pathLeaves n')
  | .text s, n', h => by simp only [conv, Except.ok.injEq] at h; subst h; exact .nil
  | .br, n', h => by simp only [conv, Except.ok.injEq] at h; subst h; exact .nil
  | .elem a kids, n', h => by
    obtain ⟨a', ks, hk, ha, _, rfl⟩ := conv_elem h
    obtain ⟨h1, h2⟩ := conv_isSpan hk
    have hl : Leaf Att.kind a' ks = Leaf Att.kind a kids := by
      simp only [Leaf, h1, (convAtt_ok ha).1]
    rw [pathLeaves, pathLeaves, hl, h2]
    split
    · split
      · exact .cons ⟨.cons ha .nil, rfl⟩ .nil
      · exact .nil
    · exact Conv.map ha (convL_leaves hk)
theorem convL_leaves {m : Media} : ∀ {ns ns' : List (Node Att)}, convL m ns = .ok ns' →
    List.Forall₂ (Conv m) (pathLeavesL ns) (pathLeavesL ns')
  | [], ns', h => by simp only [convL, Except.ok.injEq] at h; subst h; exact .nil
  | k :: ks, ns', h => by
    obtain ⟨k', ks', hk, hks, rfl⟩ := convL_cons h
    rw [pathLeavesL, pathLeavesL]
    exact forall₂_append (conv_leaves hk) (convL_leaves hks)
end

mutual
theorem conv_items {m : Media} : ∀ {n n' : Node Att}, conv m n = .ok n' → allItems n' = allItems n
  | .text s, n', h => by simp only [conv, Except.ok.injEq] at h; subst h; rfl
  | .br, n', h => by simp only [conv, Except.ok.injEq] at h; subst h; rfl
  | .elem a kids, n', h => by
    obtain ⟨a', ks, hk, ha, _, rfl⟩ := conv_elem h
    rw [allItems, allItems, convL_items hk]
theorem convL_items {m : Media} : ∀ {ns ns' : List (Node Att)}, convL m ns = .ok ns' → allItemsL ns' = allItemsL ns
  | [], ns', h => by simp only [convL, Except.ok.injEq] at h; subst h; rfl
  | k :: ks, ns', h => by
    obtain ⟨k', ks', hk, hks, rfl⟩ := convL_cons h
    rw [allItemsL, allItemsL, conv_items hk, convL_items hks]
end

/-- Negative times cannot be written. -/
theorem write_neg (rd : Reader) {t : Int} (h : t < 0) : readFull rd (writeFull t) = none := by
  have hh : (members t).1 < 0 := by
    unfold members
    simp only
    omega
  have hw : ∃ r, writeFull t = '-' :: r := by
    unfold writeFull
    rcases hm : members t with ⟨hr, mi, s, ms⟩
    rw [hm] at hh
    simp only at hh ⊢
    split <;> simp [fmtInt, hh]
  obtain ⟨r, e⟩ := hw
  rw [e]
  unfold readFull
  have : ('-' :: r).takeWhile isDig = [] := by
    rw [List.takeWhile_cons, if_neg (show ¬ isDig '-' = true by decide)]
  rw [this]
  rfl

/-- When a time can be converted, and to what. -/
theorem mapTime_ok (m : Media) (hrd : m.rd.Accurate) (o : Option TV) :
    (timeFits m o = true ↔ ∃ o', mapTime m o = .ok o') ∧
    ∀ o', mapTime m o = .ok o' → (o'.isSome = o.isSome) ∧ ∀ v v', o = some v → o' = some v' →
      v'.delta = (match m.base with
        | .clock => toMs (v.delta - m.zero)
        | _ => v.delta) := by
  cases o with
  | none =>
    refine ⟨by simp [timeFits, mapTime], ?_⟩
    intro o' h
    simp only [mapTime, Except.ok.injEq] at h
    subst h
    simp
  | some v =>
    rcases hb : m.base with _ | _ | _
    all_goals simp only [timeFits, mapTime, hb]
    · by_cases hz : m.zero ≤ v.delta
      · have hr := (C19_full_clock_round_trip m.rd hrd (mediaTime m v.delta) (by unfold mediaTime; omega)).1
        rw [hr]
        simp only [decide_eq_true_eq, hz, true_iff]
        refine ⟨⟨_, rfl⟩, ?_⟩
        intro o' h
        simp only [Except.ok.injEq] at h
        subst h
        refine ⟨rfl, ?_⟩
        intro w w' hw hw'
        simp only [Option.some.injEq] at hw hw'
        subst hw hw'
        simp only [mediaTime, Int.zero_add]
      · rw [write_neg m.rd (by unfold mediaTime; omega)]
        simp only [decide_eq_true_eq, hz, false_iff]
        exact ⟨by simp, by simp⟩
    · refine ⟨by simp, ?_⟩
      intro o' h
      simp only [Except.ok.injEq] at h
      subst h
      refine ⟨rfl, ?_⟩
      intro w w' hw hw'
      simp only [Option.some.injEq] at hw hw'
      subst hw hw'
      rfl
    · simp

theorem fitsD_conv {m : Media} {kd : Kind} : ∀ {k k' : Node Att}, conv m k = .ok k' → fitsD kd k' = fitsD kd k
  | .text s, k', h => by simp only [conv, Except.ok.injEq] at h; subst h; rfl
  | .br, k', h => by simp only [conv, Except.ok.injEq] at h; subst h; rfl
  | .elem a kids, k', h => by
    obtain ⟨a', ks, _, ha, _, rfl⟩ := conv_elem h
    simp only [fitsD, (convAtt_ok ha).1]

theorem fitsD_convL {m : Media} {kd : Kind} : ∀ {ks ks' : List (Node Att)}, convL m ks = .ok ks' → ks'.all (fitsD kd) = ks.all (fitsD kd)
  | [], ks', h => by simp only [convL, Except.ok.injEq] at h; subst h; rfl
  | k :: ks, ns', h => by
    obtain ⟨k', ks', hk, hks, rfl⟩ := convL_cons h
    rw [List.all_cons, List.all_cons, fitsD_conv hk, fitsD_convL hks]

theorem convAtt_iff (m : Media) (hrd : m.rd.Accurate) (a : Att) :
    (decide (a.kind = .body) || decide (a.kind = .div) || (timeFits m a.beg && timeFits m a.fin)) = true ↔
      ∃ a', convAtt m a = .ok a' := by
  have h1 := (mapTime_ok m hrd a.beg).1
  have h2 := (mapTime_ok m hrd a.fin).1
  cases hk : a.kind with
  | body => simp [convAtt, hk]
  | div => simp [convAtt, hk]
  | p =>
    simp only [reduceCtorEq, decide_false, Bool.or_self, Bool.false_or, Bool.and_eq_true, convAtt, hk, h1, h2]
    cases mapTime m a.beg <;> cases mapTime m a.fin <;> simp [bind, Except.bind, pure, Except.pure]
  | span =>
    simp only [reduceCtorEq, decide_false, Bool.or_self, Bool.false_or, Bool.and_eq_true, convAtt, hk, h1, h2]
    cases mapTime m a.beg <;> cases mapTime m a.fin <;> simp [bind, Except.bind, pure, Except.pure]

mutual
theorem conv_iff (m : Media) (hrd : m.rd.Accurate) : ∀ (n : Node Att), convertible m n = true ↔ ∃ n', conv m n = .ok n'
  | .text s => by simp [convertible, conv]
  | .br => by simp [convertible, conv]
  | .elem a kids => by
    rw [convertible, Bool.and_eq_true, Bool.and_eq_true, convAtt_iff m hrd, convL_iff m hrd kids]
    constructor
    · rintro ⟨⟨hf, a', ha⟩, ks, hks⟩
      refine ⟨.elem a' ks, ?_⟩
      simp only [conv, bind, Except.bind, hks, ha]
      rw [if_pos (by rw [fitsD_convL hks]; exact hf)]
      rfl
    · rintro ⟨n', h⟩
      obtain ⟨a', ks, hk, ha, hf, _⟩ := conv_elem h
      exact ⟨⟨by rw [← fitsD_convL hk]; exact hf, a', ha⟩, ks, hk⟩
theorem convL_iff (m : Media) (hrd : m.rd.Accurate) : ∀ (ns : List (Node Att)), convertibleL m ns = true ↔ ∃ ns', convL m ns = .ok ns'
  | [] => by simp [convertibleL, convL]
  | k :: ks => by
    rw [convertibleL, Bool.and_eq_true, conv_iff m hrd k, convL_iff m hrd ks]
    constructor
    · rintro ⟨⟨k', hk⟩, ks', hks⟩
      exact ⟨k' :: ks', by simp only [convL, bind, Except.bind, hk, hks, pure, Except.pure]⟩
    · rintro ⟨ns', h⟩
      obtain ⟨k', ks', hk, hks, _⟩ := convL_cons h
      exact ⟨⟨k', hk⟩, ks', hks⟩
end

end Verif.Convert
