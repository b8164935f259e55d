import Verif.Node.DelayedSeq
import Verif.Convert.LinesChainProps

/-! What retiming leaves as it is in a document, and what it moves. -/
namespace Verif.Convert

open Verif.Doc Verif.Time Verif.Node

/-! ### Structure -/

theorem items_untimed : ∀ (ns : List (Node Att)), items (untimedL ns) = items ns ∧
    (untimedL ns).any (isSpan Att.kind) = ns.any (isSpan Att.kind)
  | [] => ⟨rfl, rfl⟩
  | k :: ks => by
    obtain ⟨h1, h2⟩ := items_untimed ks
    cases k <;> simp [untimedL, Verif.Node.untimed, items, isSpan, h1, h2]

theorem fits_untimed (kd : Kind) (n : Node Att) : fits kd (Verif.Node.untimed n) = fits kd n := by cases n <;> rfl

theorem fitsD_untimed (kd : Kind) (n : Node Att) : fitsD kd (Verif.Node.untimed n) = fitsD kd n := by cases n <;> rfl

theorem all_untimed (p : Node Att → Bool) (hp : ∀ n, p (Verif.Node.untimed n) = p n) : ∀ (ns : List (Node Att)), (untimedL ns).all p = ns.all p
  | [] => rfl
  | k :: ks => by simp only [untimedL, List.all_cons, hp k, all_untimed p hp ks]

mutual
theorem shaped_untimed : ∀ (n : Node Att), shaped (Verif.Node.untimed n) = shaped n
  | .text _ => rfl
  | .br => rfl
  | .elem a kids => by simp only [Verif.Node.untimed, shaped, all_untimed _ (fits_untimed a.kind), shapedL_untimed kids]
theorem shapedL_untimed : ∀ (ns : List (Node Att)), shapedL (untimedL ns) = shapedL ns
  | [] => rfl
  | k :: ks => by simp only [untimedL, shapedL, shaped_untimed k, shapedL_untimed ks]
end

mutual
theorem flat_untimed : ∀ (n : Node Att), flat (Verif.Node.untimed n) = flat n
  | .text _ => rfl
  | .br => rfl
  | .elem a kids => by simp only [Verif.Node.untimed, flat, all_untimed _ (fitsD_untimed a.kind), flatL_untimed kids]
theorem flatL_untimed : ∀ (ns : List (Node Att)), flatL (untimedL ns) = flatL ns
  | [] => rfl
  | k :: ks => by simp only [untimedL, flatL, flat_untimed k, flatL_untimed ks]
end

mutual
theorem lined_untimed (e : Bool) : ∀ (n : Node Att), lined e (Verif.Node.untimed n) = lined e n
  | .text _ => rfl
  | .br => rfl
  | .elem a kids => by
    simp only [Verif.Node.untimed, lined, (items_untimed kids).1, (items_untimed kids).2, linedL_untimed e kids]
theorem linedL_untimed (e : Bool) : ∀ (ns : List (Node Att)), linedL e (untimedL ns) = linedL e ns
  | [] => rfl
  | k :: ks => by simp only [untimedL, linedL, lined_untimed e k, linedL_untimed e ks]
end

/-! ### Times -/

mutual
theorem wellTimed_of {d : Int} : ∀ (n : Node Att), movableIn d n = true → wellTimed n = true
  | .text _, _ => rfl
  | .br, _ => rfl
  | .elem a kids, h => by
    rw [movableIn, Bool.and_eq_true] at h
    simp only [wellTimed, (movable_parts h.1).2.1, wellTimedL_of kids h.2, Bool.not_false, Bool.and_self]
theorem wellTimedL_of {d : Int} : ∀ (ns : List (Node Att)), movableInL d ns = true → wellTimedL ns = true
  | [], _ => rfl
  | k :: ks, h => by
    rw [movableInL, Bool.and_eq_true] at h
    simp only [wellTimedL, wellTimed_of k h.1, wellTimedL_of ks h.2, Bool.and_self]
end

theorem mv_elem (d : Int) (a : Att) (kids : List (Node Att)) :
    ∃ ks, mv d (.elem a kids) = .elem (mvAtt d a) ks ∧ (ks = kids ∨ ks = mvL d kids) := by
  rw [mv]
  cases hb : a.beg with
  | none => exact ⟨mvL d kids, by simp only [mvAtt, hb, Option.map_none], .inr rfl⟩
  | some b => exact ⟨kids, by simp only [mvAtt, hb, Option.map_some], .inl rfl⟩

mutual
theorem wellTimed_mv {d : Int} (hd : 0 ≤ d) (hdm : d % 1000 = 0) : ∀ (n : Node Att), movableIn d n = true → wellTimed (mv d n) = true
  | .text _, _ => rfl
  | .br, _ => rfl
  | .elem a kids, h => by
    obtain ⟨ks, he, hk⟩ := mv_elem d a kids
    rw [movableIn, Bool.and_eq_true] at h
    have : wellTimedL ks = true := by
      rcases hk with rfl | rfl
      · exact wellTimedL_of _ h.2
      · exact wellTimedL_mv hd hdm kids h.2
    rw [he, wellTimed, badly_mv hd hdm h.1, this]
    rfl
theorem wellTimedL_mv {d : Int} (hd : 0 ≤ d) (hdm : d % 1000 = 0) : ∀ (ns : List (Node Att)), movableInL d ns = true → wellTimedL (mvL d ns) = true
  | [], _ => rfl
  | k :: ks, h => by
    rw [movableInL, Bool.and_eq_true] at h
    simp only [mvL, wellTimedL, wellTimed_mv hd hdm k h.1, wellTimedL_mv hd hdm ks h.2, Bool.and_self]
end

/-- What is assumed of one attribute, of all of an element's three. -/
def attsAll (p : Int → Bool) (a : Att) : Bool := [a.beg, a.fin, a.dur].all (fun o => o.all (fun v => p v.delta))

theorem attsAll_mv {p : Int → Bool} {d : Int} (hp : ∀ x, p x = true → p (x + d) = true) {a : Att} (h : attsAll p a = true) :
    attsAll p (mvAtt d a) = true := by
  simp only [attsAll, List.all_cons, List.all_nil, Bool.and_true, Bool.and_eq_true, mvAtt] at h ⊢
  refine ⟨?_, ?_, h.2.2⟩
  · cases hb : a.beg with
    | none => rfl
    | some v => rw [hb] at h; exact hp _ h.1
  · cases hf : a.fin with
    | none => rfl
    | some v => rw [hf] at h; exact hp _ h.2.1

mutual
theorem inMs_mv {d : Int} (hdm : d % 1000 = 0) : ∀ (n : Node Att), inMs n = true → inMs (mv d n) = true
  | .text _, _ => rfl
  | .br, _ => rfl
  | .elem a kids, h => by
    obtain ⟨ks, he, hk⟩ := mv_elem d a kids
    rw [inMs, Bool.and_eq_true] at h
    have h2 : inMsL ks = true := by
      rcases hk with rfl | rfl
      · exact h.2
      · exact inMsL_mv hdm kids h.2
    have h1 : attsAll (fun x => decide (x % 1000 = 0)) (mvAtt d a) = true :=
      attsAll_mv (by intro x hx; simp only [decide_eq_true_eq] at hx ⊢; omega) h.1
    rw [he, inMs, h2, Bool.and_true]
    exact h1
theorem inMsL_mv {d : Int} (hdm : d % 1000 = 0) : ∀ (ns : List (Node Att)), inMsL ns = true → inMsL (mvL d ns) = true
  | [], _ => rfl
  | k :: ks, h => by
    rw [inMsL, Bool.and_eq_true] at h
    simp only [mvL, inMsL, inMs_mv hdm k h.1, inMsL_mv hdm ks h.2, Bool.and_self]
end

mutual
theorem saneIn_mv {d : Int} (hd : 0 ≤ d) : ∀ (n : Node Att), saneIn n = true → saneIn (mv d n) = true
  | .text _, _ => rfl
  | .br, _ => rfl
  | .elem a kids, h => by
    obtain ⟨ks, he, hk⟩ := mv_elem d a kids
    rw [saneIn, Bool.and_eq_true, Bool.and_eq_true] at h
    have h2 : saneInL ks = true := by
      rcases hk with rfl | rfl
      · exact h.2
      · exact saneInL_mv hd kids h.2
    have h1 : attsAll (fun x => decide (0 ≤ x)) (mvAtt d a) = true :=
      attsAll_mv (by intro x hx; simp only [decide_eq_true_eq] at hx ⊢; omega) h.1.2
    have h1' : saneAtt (mvAtt d a) = true := h1
    rw [he, saneIn, h2, Bool.and_true, h1', Bool.and_true]
    exact h.1.1
theorem saneInL_mv {d : Int} (hd : 0 ≤ d) : ∀ (ns : List (Node Att)), saneInL ns = true → saneInL (mvL d ns) = true
  | [], _ => rfl
  | k :: ks, h => by
    rw [saneInL, Bool.and_eq_true] at h
    simp only [mvL, saneInL, saneIn_mv hd k h.1, saneInL_mv hd ks h.2, Bool.and_self]
end

mutual
theorem saneIn_of_reach : ∀ (n : Node Att), (∀ anc a kids, Reach n anc (.elem a kids) → a.kind ≠ .body ∧ saneAtt a = true) → saneIn n = true
  | .text _, _ => rfl
  | .br, _ => rfl
  | .elem a kids, h => by
    have h1 := h [] a kids .here
    have h2 := saneInL_of_reach kids (fun k hk anc x ks hr => h (a :: anc) x ks (by
      have key : ∀ (anc : List Att) (n : Node Att), Reach k anc n → Reach (.elem a kids) (a :: anc) n := by
        intro anc n hr
        induction hr with
        | here => exact Reach.step (anc := []) .here hk
        | step _ hm ih => exact Reach.step ih hm
      exact key _ _ hr))
    rw [saneIn, h2, h1.2, Bool.and_true, Bool.and_true]
    simpa using h1.1
theorem saneInL_of_reach : ∀ (ns : List (Node Att)), (∀ k ∈ ns, ∀ anc a kids, Reach k anc (.elem a kids) → a.kind ≠ .body ∧ saneAtt a = true) →
    saneInL ns = true
  | [], _ => rfl
  | k :: ks, h => by
    simp only [saneInL, saneIn_of_reach k (h k List.mem_cons_self), saneInL_of_reach ks (fun x hx => h x (List.mem_cons_of_mem _ hx)), Bool.and_self]
end

theorem saneAtt_of {a : Att} (h : ∀ v, a.beg = some v ∨ a.fin = some v ∨ a.dur = some v → 0 ≤ v.delta) : saneAtt a = true := by
  simp only [saneAtt, List.all_cons, List.all_nil, Bool.and_true, Bool.and_eq_true]
  refine ⟨?_, ?_, ?_⟩
  · cases hb : a.beg with
    | none => rfl
    | some v => simpa using h v (.inl hb)
  · cases hb : a.fin with
    | none => rfl
    | some v => simpa using h v (.inr (.inl hb))
  · cases hb : a.dur with
    | none => rfl
    | some v => simpa using h v (.inr (.inr hb))

theorem sane_parts {a : Att} {kids : List (Node Att)} (h : Sane (.elem a kids)) : a.kind = .body ∧ saneAtt a = true ∧ saneInL kids = true := by
  refine ⟨?_, saneAtt_of (h.nonneg [] a kids .here), ?_⟩
  · obtain ⟨a', k', he, hk⟩ := h.body
    injection he with he _
    rw [he]; exact hk
  · refine saneInL_of_reach kids (fun k hk anc x ks hr => ?_)
    have key : ∀ (anc : List Att) (n : Node Att), Reach k anc n → Reach (.elem a kids) (a :: anc) n := by
      intro anc n hr
      induction hr with
      | here => exact Reach.step (anc := []) .here hk
      | step _ hm ih => exact Reach.step ih hm
    have hr' := key _ _ hr
    refine ⟨fun hb => ?_, saneAtt_of (h.nonneg _ x ks hr')⟩
    have := h.inner _ x ks hr' hb
    cases this

/-! ### A retimed document -/

/-- The retimed body. -/
theorem retimeDoc_eq {rd : Reader} (hrd : rd.Accurate) {base : TimeBase} (hb : base ≠ .smpte) {d : Int} (hd : 0 < d) (hdm : d % 1000 = 0)
    (hd1 : d < 360000000000) {a : Att} {kids : List (Node Att)} (hm : movableIn d (.elem a kids) = true) :
    retimeDoc base rd d (.elem a kids) = some (if untimedLeaf (.elem a kids) = true then
      .elem { a with beg := some ⟨Time.writeFull d, d⟩, fin := a.fin.map (mvTV d) } kids else mv d (.elem a kids)) := by
  by_cases hu : untimedLeaf (.elem a kids) = true
  · have hu' := hu
    rw [untimedLeaf, Bool.and_eq_true, Option.isNone_iff_eq_none] at hu'
    have hs : stamp base rd d = some ⟨Time.writeFull d, d⟩ := stamp_eq hrd hb (by omega) hdm hd1
    have hfin : shiftOpt base rd d a.fin = some (a.fin.map (mvTV d)) := by
      rw [movableIn, Bool.and_eq_true] at hm
      obtain ⟨h1, _⟩ := movable_parts hm.1
      cases hf : a.fin with
      | none => rfl
      | some v =>
        obtain ⟨m1, m2, m3⟩ := h1 v (.inr hf)
        rw [shiftOpt, shiftTV_eq hrd hb (by omega) hdm m2 m1 m3]; rfl
    rw [if_pos hu, retimeDoc, if_pos hu, retimeBody.eq_def]
    simp only [hu'.1]
    cases base with
    | smpte => exact absurd rfl hb
    | clock => simp only [hs, hfin, Option.bind_some, Option.map_some]
    | media => simp only [hs, hfin, Option.bind_some, Option.map_some]
  · rw [if_neg hu, retimeDoc, if_neg hu]
    exact retime_eq hrd hb (by omega) hdm _ hm

/-- Everything the chain behind the node asks of a document is kept. -/
theorem retimed_keeps {rd : Reader} (hrd : rd.Accurate) {base : TimeBase} (hb : base ≠ .smpte) {d : Int} (hd : 0 < d) (hdm : d % 1000 = 0)
    (hd1 : d < 360000000000) {a : Att} {kids : List (Node Att)} (hm : movableIn d (.elem a kids) = true) (hs : Sane (.elem a kids))
    (hms : inMs (.elem a kids) = true) {r : Node Att} (hr : retimeDoc base rd d (.elem a kids) = some r) :
    Sane r ∧ wellTimed r = true ∧ inMs r = true ∧ Verif.Node.untimed r = Verif.Node.untimed (.elem a kids) := by
  rw [retimeDoc_eq hrd hb hd hdm hd1 hm] at hr
  injection hr with hr
  have hm' := hm
  rw [movableIn, Bool.and_eq_true] at hm
  obtain ⟨hk, h1, h2⟩ := sane_parts hs
  have hmv : saneAtt (mvAtt d a) = true :=
    attsAll_mv (p := fun x => decide (0 ≤ x)) (by intro x hx; simp only [decide_eq_true_eq] at hx ⊢; omega) h1
  rw [inMs, Bool.and_eq_true] at hms
  by_cases hu : untimedLeaf (.elem a kids) = true
  · rw [if_pos hu] at hr
    subst hr
    have hu' := hu
    rw [untimedLeaf, Bool.and_eq_true, Option.isNone_iff_eq_none] at hu'
    refine ⟨sane_of hk ?_ h2, ?_, ?_, rfl⟩
    · simp only [saneAtt, List.all_cons, List.all_nil, Bool.and_true, Bool.and_eq_true] at h1 ⊢
      refine ⟨by simp only [Option.all_some, decide_eq_true_eq]; omega, ?_, h1.2.2⟩
      have := hmv
      simp only [saneAtt, List.all_cons, List.all_nil, Bool.and_true, Bool.and_eq_true, mvAtt] at this
      exact this.2.1
    · rw [wellTimed, wellTimedL_of kids hm.2, Bool.and_true, Bool.not_eq_true']
      unfold badly
      cases hf : a.fin with
      | none => rfl
      | some e =>
        obtain ⟨m1, _, _, m4, _⟩ := movable_parts hm.1
        have he := m1 e (.inr hf)
        have hne := m4 e hf
        have := text_order (d := d) (b := ⟨[], 0⟩) (e := e) (by omega) hdm ⟨rfl, Int.le_refl 0, by simpa using hd1⟩ he (by simp only; omega)
        simp only [mvTV, Int.zero_add] at this
        simpa [mvTV] using this
    · rw [inMs, hms.2, Bool.and_true]
      have : attsAll (fun x => decide (x % 1000 = 0)) (mvAtt d a) = true :=
        attsAll_mv (by intro x hx; simp only [decide_eq_true_eq] at hx ⊢; omega) hms.1
      simp only [attsAll, List.all_cons, List.all_nil, Bool.and_true, Bool.and_eq_true, mvAtt] at this ⊢
      exact ⟨by simpa using hdm, this.2.1, this.2.2⟩
  · rw [if_neg hu] at hr
    subst hr
    refine ⟨?_, wellTimed_mv (by omega) hdm _ hm', inMs_mv hdm _ (by rw [inMs, Bool.and_eq_true]; exact hms), untimed_mv d _⟩
    obtain ⟨ks, he, hks⟩ := mv_elem d a kids
    rw [he]
    refine sane_of hk hmv ?_
    rcases hks with rfl | rfl
    · exact h2
    · exact saneInL_mv (by omega) kids h2

/-! ### What is read -/

theorem at_moved (d t : Int) (c : Comp) : (Comp.moved d c).at (t + d) = c.at t := by
  unfold Doc.Comp.at Comp.moved
  cases c.e with
  | none => simp
  | some e => simp

mutual
theorem readAt_moved (d t : Int) : ∀ {x y : Node Lab}, Verif.Node.untimed (erase x) = Verif.Node.untimed (erase y) → comps x = (comps y).map (Comp.moved d) →
    readAt (t + d) x = readAt t y
  | .text s, y, h, _ => by cases y <;> simp [erase, Verif.Node.untimed] at h <;> subst h <;> rfl
  | .br, y, h, _ => by cases y <;> simp [erase, Verif.Node.untimed] at h <;> rfl
  | .elem a k, y, h, hc => by
    cases y with
    | text s => simp [erase, Verif.Node.untimed] at h
    | br => simp [erase, Verif.Node.untimed] at h
    | elem b l =>
      simp only [erase, Verif.Node.untimed, Node.elem.injEq] at h
      simp only [comps, List.map_cons, List.cons.injEq] at hc
      have ih := readAtL_moved d t h.2 hc.2
      simp only [readAt, hc.1, at_moved, ih]
theorem readAtL_moved (d t : Int) : ∀ {xs ys : List (Node Lab)}, untimedL (eraseL xs) = untimedL (eraseL ys) →
    compsL xs = (compsL ys).map (Comp.moved d) → readAtL (t + d) xs = readAtL t ys
  | [], [], _, _ => rfl
  | [], y :: ys, h, _ => by simp [eraseL, untimedL] at h
  | x :: xs, [], h, _ => by simp [eraseL, untimedL] at h
  | x :: xs, y :: ys, h, hc => by
    simp only [eraseL, untimedL, List.cons.injEq] at h
    rw [compsL, compsL, List.map_append] at hc
    obtain ⟨h1, h2⟩ := List.append_inj hc (by rw [List.length_map]; exact comps_length h.1)
    simp only [readAtL, readAt_moved d t h.1 h1, readAtL_moved d t h.2 h2]
end

mutual
theorem linesAt_moved (d t : Int) : ∀ {x y : Node Lab}, Verif.Node.untimed (erase x) = Verif.Node.untimed (erase y) → comps x = (comps y).map (Comp.moved d) →
    linesAt (t + d) x = linesAt t y
  | .text s, y, h, _ => by cases y <;> simp [erase, Verif.Node.untimed] at h <;> rfl
  | .br, y, h, _ => by cases y <;> simp [erase, Verif.Node.untimed] at h <;> rfl
  | .elem a k, y, h, hc => by
    cases y with
    | text s => simp [erase, Verif.Node.untimed] at h
    | br => simp [erase, Verif.Node.untimed] at h
    | elem b l =>
      have hr := readAt_moved d t h hc
      simp only [erase, Verif.Node.untimed, Node.elem.injEq] at h
      simp only [comps, List.map_cons, List.cons.injEq] at hc
      have hkind : a.att.kind = b.att.kind := by
        have := h.1
        simp only [Att.mk.injEq] at this
        exact this.1
      simp only [linesAt, hkind, hr, linesAtL_moved d t h.2 hc.2]
theorem linesAtL_moved (d t : Int) : ∀ {xs ys : List (Node Lab)}, untimedL (eraseL xs) = untimedL (eraseL ys) →
    compsL xs = (compsL ys).map (Comp.moved d) → linesAtL (t + d) xs = linesAtL t ys
  | [], [], _, _ => rfl
  | [], y :: ys, h, _ => by simp [eraseL, untimedL] at h
  | x :: xs, [], h, _ => by simp [eraseL, untimedL] at h
  | x :: xs, y :: ys, h, hc => by
    simp only [eraseL, untimedL, List.cons.injEq] at h
    rw [compsL, compsL, List.map_append] at hc
    obtain ⟨h1, h2⟩ := List.append_inj hc (by rw [List.length_map]; exact comps_length h.1)
    simp only [linesAtL, linesAt_moved d t h.1 h1, linesAtL_moved d t h.2 h2]
end

end Verif.Convert
