import Verif.Convert.Lemmas

/-! Theorems about the conversion to EBU-TT-D (C43), and about written and computed times (C57). -/
namespace Verif.Convert

open Verif.Doc Verif.Time

/-! ### C57 -/

/-- C57.  From the availability time on, the text a validated document shows by the times the toolkit computes is the
text whose surrounding elements have all begun and not ended by the times written in the document. -/
theorem C57_shown_as_written (avail : Int) (root : Node Att) (hs : shaped root = true) (hp : plainTimes root = true)
    (hd : noDur root = true) (doc : Node Lab) (hdoc : validateDoc avail root = .ok doc) (t : Int) (ht : avail ≤ t) :
    shownAt doc t = writtenAt root t := by
  rw [validateDoc_eq] at hdoc
  simp only [Except.ok.injEq] at hdoc
  subst hdoc
  have := shown_path ht root 0 none hs hp hd
  simpa [shownAt, leavesOf, writtenAt] using this

/-- A body and a p with begins, spans with ends. -/
def exWritten : Node Att :=
  .elem { kind := .body, beg := sec 10 } [.elem { kind := .div, fin := sec 30 } [.elem { kind := .p, beg := sec 5 }
    [.elem { kind := .span, fin := sec 9 } [.text "a".toList], .elem { kind := .span, beg := sec 2, fin := sec 40 } [.text "b".toList]]]]

example : shaped exWritten = true ∧ plainTimes exWritten = true ∧ noDur exWritten = true := by decide

example : [14, 16, 18, 30, 41].map (fun s => writtenAt exWritten (s * 1000000)) =
    [[], [[.text "a".toList]], [[.text "a".toList], [.text "b".toList]], [[.text "b".toList]], []] := by decide +kernel

/-! ### Paths -/

/-- Below an element with a begin nothing is timed. -/
def chainOnce : List Att → Prop
  | [] => True
  | a :: p => (a.beg.isSome = true → ∀ b ∈ p, untimed b = true) ∧ chainOnce p

/-- All times are whole milliseconds. -/
def attMs (a : Att) : Bool := [a.beg, a.fin, a.dur].all (fun o => o.all (fun v => decide (v.delta % 1000 = 0)))

mutual
theorem path_att {n : Node Att} {l : List Att × List Item} (h : l ∈ pathLeaves n) (hc : containersUntimed n = true)
    (hm : inMs n = true) : ∀ a ∈ l.1, ((a.kind = .p ∨ a.kind = .span) ∨ untimed a = true) ∧ attMs a = true := by
  match n with
  | .text _ => simp [pathLeaves] at h
  | .br => simp [pathLeaves] at h
  | .elem a kids =>
    simp only [containersUntimed, inMs, Bool.and_eq_true, Bool.or_eq_true, decide_eq_true_eq] at hc hm
    rw [pathLeaves] at h
    split at h
    · split at h
      · simp only [List.mem_singleton] at h
        subst h
        intro b hb
        simp only [List.mem_singleton] at hb
        subst hb
        exact ⟨hc.1, hm.1⟩
      · simp at h
    · obtain ⟨l', hl', rfl⟩ := List.mem_map.mp h
      intro b hb
      rcases List.mem_cons.mp hb with rfl | hb
      · exact ⟨hc.1, hm.1⟩
      · exact pathL_att hl' hc.2 hm.2 b hb
theorem pathL_att {ns : List (Node Att)} {l : List Att × List Item} (h : l ∈ pathLeavesL ns) (hc : containersUntimedL ns = true)
    (hm : inMsL ns = true) : ∀ a ∈ l.1, ((a.kind = .p ∨ a.kind = .span) ∨ untimed a = true) ∧ attMs a = true := by
  match ns with
  | [] => simp [pathLeavesL] at h
  | k :: ks =>
    simp only [containersUntimedL, inMsL, Bool.and_eq_true] at hc hm
    rw [pathLeavesL, List.mem_append] at h
    rcases h with h | h
    · exact path_att h hc.1 hm.1
    · exact pathL_att h hc.2 hm.2
end

mutual
theorem path_untimed {n : Node Att} {l : List Att × List Item} (h : l ∈ pathLeaves n) (hc : untimedIn n = true) :
    ∀ a ∈ l.1, untimed a = true := by
  match n with
  | .text _ => simp [pathLeaves] at h
  | .br => simp [pathLeaves] at h
  | .elem a kids =>
    simp only [untimedIn, Bool.and_eq_true] at hc
    rw [pathLeaves] at h
    split at h
    · split at h
      · simp only [List.mem_singleton] at h
        subst h
        intro b hb
        simp only [List.mem_singleton] at hb
        subst hb
        exact hc.1
      · simp at h
    · obtain ⟨l', hl', rfl⟩ := List.mem_map.mp h
      intro b hb
      rcases List.mem_cons.mp hb with rfl | hb
      · exact hc.1
      · exact pathL_untimed hl' hc.2 b hb
theorem pathL_untimed {ns : List (Node Att)} {l : List Att × List Item} (h : l ∈ pathLeavesL ns) (hc : untimedInL ns = true) :
    ∀ a ∈ l.1, untimed a = true := by
  match ns with
  | [] => simp [pathLeavesL] at h
  | k :: ks =>
    simp only [untimedInL, Bool.and_eq_true] at hc
    rw [pathLeavesL, List.mem_append] at h
    rcases h with h | h
    · exact path_untimed h hc.1
    · exact pathL_untimed h hc.2
end

mutual
theorem path_chain {n : Node Att} {l : List Att × List Item} (h : l ∈ pathLeaves n) (hc : beginsOnce n = true) : chainOnce l.1 := by
  match n with
  | .text _ => simp [pathLeaves] at h
  | .br => simp [pathLeaves] at h
  | .elem a kids =>
    simp only [beginsOnce, Bool.and_eq_true, Bool.or_eq_true] at hc
    rw [pathLeaves] at h
    split at h
    · split at h
      · simp only [List.mem_singleton] at h
        subst h
        exact ⟨fun _ b hb => by simp at hb, trivial⟩
      · simp at h
    · obtain ⟨l', hl', rfl⟩ := List.mem_map.mp h
      refine ⟨?_, pathL_chain hl' hc.2⟩
      intro hb
      rcases hc.1 with h1 | h1
      · rw [Option.isNone_iff_eq_none] at h1
        rw [h1] at hb
        simp at hb
      · exact pathL_untimed hl' h1
theorem pathL_chain {ns : List (Node Att)} {l : List Att × List Item} (h : l ∈ pathLeavesL ns) (hc : beginsOnceL ns = true) : chainOnce l.1 := by
  match ns with
  | [] => simp [pathLeavesL] at h
  | k :: ks =>
    simp only [beginsOnceL, Bool.and_eq_true] at hc
    rw [pathLeavesL, List.mem_append] at h
    rcases h with h | h
    · exact path_chain h hc.1
    · exact pathL_chain h hc.2
end

/-- An element without times has none after conversion. -/
theorem convAtt_untimed {m : Media} {a a' : Att} (h : convAtt m a = .ok a') (hu : untimed a = true) :
    a.beg = none ∧ a.fin = none ∧ a'.beg = none ∧ a'.fin = none := by
  simp only [untimed, Bool.and_eq_true, Option.isNone_iff_eq_none] at hu
  obtain ⟨_, _, h1, h2⟩ := convAtt_ok h
  refine ⟨hu.1.1, hu.1.2, ?_⟩
  cases hk : a.kind with
  | body => exact h2 (.inl hk)
  | div => exact h2 (.inr hk)
  | p =>
    obtain ⟨e1, e2⟩ := h1 (.inl hk)
    rw [hu.1.1] at e1; rw [hu.1.2] at e2
    simp only [mapTime, Except.ok.injEq] at e1 e2
    exact ⟨e1.symm, e2.symm⟩
  | span =>
    obtain ⟨e1, e2⟩ := h1 (.inr hk)
    rw [hu.1.1] at e1; rw [hu.1.2] at e2
    simp only [mapTime, Except.ok.injEq] at e1 e2
    exact ⟨e1.symm, e2.symm⟩

theorem on_untimed {m : Media} {p p' : List Att} (h : List.Forall₂ (fun a a' => convAtt m a = .ok a') p p')
    (hu : ∀ a ∈ p, untimed a = true) (s : Int) : on s p = on s p' := by
  induction h generalizing s with
  | nil => rfl
  | @cons a a' p p' ha _ ih =>
    obtain ⟨h1, h2, h3, h4⟩ := convAtt_untimed ha (hu a List.mem_cons_self)
    simp only [on, h1, h2, h3, h4]
    rw [ih (fun b hb => hu b (List.mem_cons_of_mem _ hb))]

/-- What becomes of the times of an element. -/
theorem convAtt_times {m : Media} (hrd : m.rd.Accurate) {a a' : Att} (h : convAtt m a = .ok a')
    (hk : (a.kind = .p ∨ a.kind = .span) ∨ untimed a = true) (hms : attMs a = true) (hz : m.base = .clock → m.zero % 1000 = 0) :
    a'.beg.map TV.delta = a.beg.map (fun v => v.delta - m.shift) ∧ a'.fin.map TV.delta = a.fin.map (fun v => v.delta - m.shift) := by
  rcases hk with hk | hk
  · obtain ⟨e1, e2⟩ := (convAtt_ok h).2.2.1 hk
    simp only [attMs, List.all_cons, List.all_nil, Bool.and_true, Bool.and_eq_true] at hms
    have key : ∀ o o', mapTime m o = .ok o' → o.all (fun v => decide (v.delta % 1000 = 0)) = true →
        o'.map TV.delta = o.map (fun v => v.delta - m.shift) := by
      intro o o' he hm
      obtain ⟨h1, h2⟩ := (mapTime_ok m hrd o).2 o' he
      cases o with
      | none =>
        cases o' with
        | none => rfl
        | some _ => simp at h1
      | some v =>
        cases o' with
        | none => simp at h1
        | some v' =>
          have := h2 v v' rfl rfl
          have hm : v.delta % 1000 = 0 := by simpa using hm
          simp only [Option.map_some, Option.some.injEq]
          rw [this]
          unfold Media.shift
          cases hb : m.base with
          | clock =>
            have := hz hb
            simp only [toMs]
            omega
          | media => simp
          | smpte => simp
    exact ⟨key _ _ e1 hms.1, key _ _ e2 hms.2.1⟩
  · obtain ⟨h1, h2, h3, h4⟩ := convAtt_untimed h hk
    simp [h1, h2, h3, h4]

/-- Without a shift. -/
theorem on_same {m : Media} (hrd : m.rd.Accurate) (hm : m.base ≠ .clock) {p p' : List Att}
    (h : List.Forall₂ (fun a a' => convAtt m a = .ok a') p p')
    (hp : ∀ a ∈ p, ((a.kind = .p ∨ a.kind = .span) ∨ untimed a = true) ∧ attMs a = true) : ∀ t, on t p = on t p' := by
  have hs0 : m.shift = 0 := by
    unfold Media.shift
    cases hb : m.base with
    | clock => exact absurd hb hm
    | media => rfl
    | smpte => rfl
  induction h with
  | nil => intro t; rfl
  | @cons a a' p p' ha _ ih =>
    intro t
    obtain ⟨hb, he⟩ := convAtt_times hrd ha (hp a List.mem_cons_self).1 (hp a List.mem_cons_self).2 (fun h => absurd h hm)
    rw [hs0] at hb he
    simp only [Int.sub_zero] at hb he
    have hf : a.fin.all (fun e => decide (t < e.delta)) = a'.fin.all (fun e => decide (t < e.delta)) := by
      cases h1 : a.fin <;> cases h2 : a'.fin <;> rw [h1, h2] at he <;> simp_all
    simp only [on]
    rw [hb, hf, ← ih (fun b hb => hp b (List.mem_cons_of_mem _ hb))]

/-- A path is on at a media time as the path it was converted from at the time it stands for. -/
theorem on_conv {m : Media} (hrd : m.rd.Accurate) (hz0 : 0 ≤ m.zero) (hz : m.base = .clock → m.zero % 1000 = 0)
    {p p' : List Att} (h : List.Forall₂ (fun a a' => convAtt m a = .ok a') p p')
    (hp : ∀ a ∈ p, ((a.kind = .p ∨ a.kind = .span) ∨ untimed a = true) ∧ attMs a = true)
    (hc : m.base = .clock → chainOnce p) : ∀ t, m.shift ≤ t → on t p = on (t - m.shift) p' := by
  by_cases hcl : m.base ≠ .clock
  · intro t _
    have hs0 : m.shift = 0 := by
      unfold Media.shift
      cases hb : m.base with
      | clock => exact absurd hb hcl
      | media => rfl
      | smpte => rfl
    rw [hs0, Int.sub_zero]
    exact on_same hrd hcl h hp t
  have hcl : m.base = .clock := Decidable.not_not.mp hcl
  induction h with
  | nil => intro t _; rfl
  | @cons a a' p p' ha hrest ih =>
    intro t ht
    obtain ⟨hb, he⟩ := convAtt_times hrd ha (hp a List.mem_cons_self).1 (hp a List.mem_cons_self).2 hz
    have hshift0 : 0 ≤ m.shift := by unfold Media.shift; split <;> omega
    have ih := ih (fun b hb => hp b (List.mem_cons_of_mem _ hb)) (fun e => (hc e).2)
    have hfin : a.fin.all (fun e => decide (t < e.delta)) = a'.fin.all (fun e => decide (t - m.shift < e.delta)) := by
      cases hf : a.fin with
      | none =>
        cases hf' : a'.fin with
        | none => rfl
        | some _ => rw [hf, hf'] at he; simp at he
      | some v =>
        cases hf' : a'.fin with
        | none => rw [hf, hf'] at he; simp at he
        | some v' =>
          rw [hf, hf'] at he
          simp only [Option.map_some, Option.some.injEq] at he
          simp only [Option.all_some, decide_eq_decide]
          omega
    simp only [on]
    rw [hfin, hb]
    cases hbeg : a.beg with
    | none =>
      simp only [Option.map_none, Option.getD_none, Int.sub_zero]
      rw [ih t ht, decide_eq_true (by omega : (0:Int) ≤ t), decide_eq_true (by omega : (0:Int) ≤ t - m.shift)]
    | some v =>
      simp only [Option.map_some, Option.getD_some]
      have e1 : decide (v.delta ≤ t) = decide (v.delta - m.shift ≤ t - m.shift) := by
        rw [decide_eq_decide]; omega
      have e2 : t - m.shift - (v.delta - m.shift) = t - v.delta := by omega
      rw [e1, e2]
      congr 1
      exact on_untimed hrest ((hc hcl).1 (by rw [hbeg]; rfl)) _
/-! ### C43 -/

/-- C43, text: the converted document contains all texts and line breaks, in order.  (A body without divs is left out.) -/
theorem C43_text_kept (m : Media) (a : Att) (kids : List (Node Att)) (hk : a.kind = .body)
    (hs : shaped (.elem a kids) = true) (out : Option (Node Att)) (h : convertBody m (.elem a kids) = .ok out) :
    (out.map allItems).getD [] = allItems (.elem a kids) := by
  unfold convertBody at h
  split at h
  · cases hc : conv m (.elem a kids) with
    | error e => rw [hc] at h; simp [Except.map] at h
    | ok n' =>
      rw [hc] at h
      simp only [Except.map, Except.ok.injEq] at h
      subst h
      exact conv_items hc
  · rename_i hd
    simp only [Except.ok.injEq] at h
    subst h
    have : kids = [] := by
      cases kids with
      | nil => rfl
      | cons k ks =>
        simp only [shaped, Bool.and_eq_true, List.all_cons, hk] at hs
        have hf := hs.1.1
        cases k with
        | text s => simp [fits] at hf
        | br => simp [fits] at hf
        | elem b bs =>
          simp only [fits, decide_eq_true_eq] at hf
          simp [hasDiv, hf] at hd
    subst this
    rfl

/-- C43, which documents can be converted: those without div in div and span in span, whose p and span times are not
before media time zero (`convertible`).  For all others the conversion raises. -/
theorem C43_converts_iff (m : Media) (hrd : m.rd.Accurate) (root : Node Att) (hd : hasDiv root = true) :
    convertible m root = true ↔ ∃ out, convertBody m root = .ok (some out) := by
  rw [conv_iff m hrd]
  unfold convertBody
  rw [if_pos hd]
  cases conv m root <;> simp [Except.map]

/-- C43, timing: at every instant from availability and media time zero on, the converted document shows at the
corresponding media time what the document shows.  Missing: documents with times on body or div
(`C43_false_container_times`), clock times inside elements that have a begin (`C43_false_nested_clock_times`), times that are not whole
milliseconds (`C43_false_microseconds`). -/
theorem C43_shown_alike_partial (m : Media) (hrd : m.rd.Accurate) (hz0 : 0 ≤ m.zero) (hz : m.base = .clock → m.zero % 1000 = 0)
    (avail : Int) (root : Node Att) (hs : shaped root = true) (hp : plainTimes root = true)
    (hc : containersUntimed root = true) (hms : inMs root = true) (h1 : m.base = .clock → beginsOnce root = true)
    (doc : Node Lab) (hdoc : validateDoc avail root = .ok doc) (out : Node Att) (h : convertBody m root = .ok (some out)) :
    ∀ t, avail ≤ t → m.shift ≤ t → shownAt doc t = writtenAt out (t - m.shift) := by
  intro t ha ht
  have hd : noDur root = true := by
    have gen : ∀ n : Node Att, containersUntimed n = true → noDur n = true := by
      intro n
      induction n using Node.rec (motive_2 := fun ns => containersUntimedL ns = true → noDurL ns = true) with
      | text s => intro _; rfl
      | br => intro _; rfl
      | elem a kids ih =>
        intro h
        simp only [containersUntimed, Bool.and_eq_true, Bool.or_eq_true, decide_eq_true_eq] at h
        simp only [noDur, Bool.and_eq_true, Bool.or_eq_true]
        refine ⟨?_, ih h.2⟩
        rcases h.1 with (h | h) | h
        · left; simp [h]
        · left; simp [h]
        · right
          simp only [untimed, Bool.and_eq_true] at h
          exact h.2
      | nil => rfl
      | cons k ks ih1 ih2 =>
        rename_i h
        simp only [containersUntimedL, Bool.and_eq_true] at h
        simp only [noDurL, Bool.and_eq_true]
        exact ⟨ih1 h.1, ih2 h.2⟩
    exact gen root hc
  rw [C57_shown_as_written avail root hs hp hd doc hdoc t ha]
  unfold convertBody at h
  split at h
  · cases hcv : conv m root with
    | error e => rw [hcv] at h; simp [Except.map] at h
    | ok n' =>
      rw [hcv] at h
      simp only [Except.map, Except.ok.injEq, Option.some.injEq] at h
      subst h
      unfold writtenAt
      refine filter_map_forall₂ (conv_leaves hcv) ?_
      intro l hl l' hll
      exact ⟨on_conv hrd hz0 hz hll.1 (path_att hl hc hms) (fun e => path_chain hl (h1 e)) t ht, hll.2⟩
  · simp at h

/-- What identifies an element and links it to its styling: kind, identifier, region and styles. -/
structure Skel where
  kind : Kind
  id : Option (List Char)
  region : Option (List Char)
  style : List (List Char)
deriving DecidableEq, Repr

/-- What of this EBU-TT-D has, or the converter passes on: body has none, span no region. -/
def skelAtt (a : Att) : Skel :=
  match a.kind with
  | .body => ⟨.body, none, none, []⟩
  | .span => ⟨.span, a.id, none, a.style⟩
  | kd => ⟨kd, a.id, a.region, a.style⟩

mutual
def skeleton : Node Att → Node Skel
  | .text s => .text s
  | .br => .br
  | .elem a kids => .elem (skelAtt a) (skeletonL kids)
def skeletonL : List (Node Att) → List (Node Skel)
  | [] => []
  | k :: ks => skeleton k :: skeletonL ks
end

theorem skelAtt_conv {m : Media} {a a' : Att} (h : convAtt m a = .ok a') : skelAtt a' = skelAtt a := by
  unfold convAtt at h
  unfold skelAtt
  cases hk : a.kind with
  | body => simp only [hk, Except.ok.injEq] at h; subst h; rfl
  | div => simp only [hk, Except.ok.injEq] at h; subst h; rfl
  | p =>
    simp only [hk, bind, Except.bind] at h
    cases hb : mapTime m a.beg with
    | error e => rw [hb] at h; simp at h
    | ok b =>
      rw [hb] at h
      simp only at h
      cases he : mapTime m a.fin with
      | error e => rw [he] at h; simp at h
      | ok e => rw [he] at h; simp only [pure, Except.pure, Except.ok.injEq] at h; subst h; rfl
  | span =>
    simp only [hk, bind, Except.bind] at h
    cases hb : mapTime m a.beg with
    | error e => rw [hb] at h; simp at h
    | ok b =>
      rw [hb] at h
      simp only at h
      cases he : mapTime m a.fin with
      | error e => rw [he] at h; simp at h
      | ok e => rw [he] at h; simp only [pure, Except.pure, Except.ok.injEq] at h; subst h; rfl

mutual
theorem conv_skeleton {m : Media} : ∀ {n n' : Node Att}, conv m n = .ok n' → skeleton n' = skeleton n
  | .text s, n', h => by simp only [conv, Except.ok.injEq] at h; subst h; rfl
  | .br, n', h => by simp only [conv, Except.ok.injEq] at h; subst h; rfl
  | .elem a kids, n', h => by
    obtain ⟨a', ks, hk, ha, _, rfl⟩ := conv_elem h
    rw [skeleton, skeleton, convL_skeleton hk, skelAtt_conv ha]
theorem convL_skeleton {m : Media} : ∀ {ns ns' : List (Node Att)}, convL m ns = .ok ns' → skeletonL ns' = skeletonL ns
  | [], ns', h => by simp only [convL, Except.ok.injEq] at h; subst h; rfl
  | k :: ks, ns', h => by
    obtain ⟨k', ks', hk, hks, rfl⟩ := convL_cons h
    rw [skeletonL, skeletonL, conv_skeleton hk, convL_skeleton hks]
end

/-- C43, structure: the converted document has the elements of the document in the same places, with the same
identifiers, regions and styles; body loses its styles (`C43_false_body_style`). -/
theorem C43_structure_kept (m : Media) (root out : Node Att) (h : convertBody m root = .ok (some out)) :
    skeleton out = skeleton root := by
  unfold convertBody at h
  split at h
  · cases hc : conv m root with
    | error e => rw [hc] at h; simp [Except.map] at h
    | ok n' =>
      rw [hc] at h
      simp only [Except.map, Except.ok.injEq, Option.some.injEq] at h
      subst h
      exact conv_skeleton hc
  · simp at h

/-- A clock document for media time zero at 10:00:00: a timed p with spans, a p with timed spans, and an end only. -/
def exClock : Node Att :=
  .elem { kind := .body } [.elem { kind := .div, id := some "d".toList, region := some "r".toList } [
    .elem { kind := .p, id := some "p1".toList, beg := sec 36010, fin := sec 36020 } [.elem { kind := .span } [.text "a".toList, .br, .text "b".toList]],
    .elem { kind := .p, id := some "p2".toList } [.elem { kind := .span, beg := sec 36015 } [.text "c".toList],
      .elem { kind := .span, fin := sec 36012, style := ["s".toList] } [.text "d".toList]]]]

def exMedia : Media := { base := .clock, zero := 36000000000, rd := exactReader }

theorem exClock_ok : ∃ out, convertBody exMedia exClock = .ok (some out) :=
  (C43_converts_iff exMedia exactReader_accurate exClock (by decide)).mp (by decide)

example : ∃ out, convertBody exMedia exClock = .ok (some out) ∧
    ∀ t, 36000000000 ≤ t → shownAt (times 0 0 none exClock) t = writtenAt out (t - 36000000000) := by
  obtain ⟨out, h⟩ := exClock_ok
  exact ⟨out, h, fun t ht => C43_shown_alike_partial exMedia exactReader_accurate (by decide) (by decide) 0 exClock (by decide)
    (by decide) (by decide) (by decide) (by decide) _ (validateDoc_eq 0 exClock) out h t (by omega) ht⟩

example : ((convertBody exMedia exClock).toOption.map (fun o => o.map (fun out =>
    [5, 11, 13, 16, 25].map (fun s => writtenAt out (s * 1000000))))) =
    some (some [[[.text "d".toList]], [[.text "a".toList, .br, .text "b".toList], [.text "d".toList]],
      [[.text "a".toList, .br, .text "b".toList]], [[.text "a".toList, .br, .text "b".toList], [.text "c".toList]], [[.text "c".toList]]]) := by
  decide +kernel

/-! ### Where it fails -/

/-- The times of body and div are dropped. -/
theorem C43_false_container_times : ∃ root out, shaped root = true ∧ plainTimes root = true ∧ inMs root = true ∧
    convertBody { base := .media, zero := 0, rd := exactReader } root = .ok (some out) ∧
    shownAt (times 0 0 none root) 5000000 = [] ∧ writtenAt out 5000000 = [[.text "a".toList]] :=
  ⟨.elem { kind := .body, beg := sec 10 } [.elem { kind := .div } [.elem { kind := .p } [.text "a".toList]]],
   .elem { kind := .body } [.elem { kind := .div } [.elem { kind := .p } [.text "a".toList]]],
   by decide, by decide, by decide, rfl, by decide +kernel, by decide +kernel⟩

/-- Clock times inside an element that has a begin are taken back by media time zero a second time. -/
theorem C43_false_nested_clock_times : ∃ root, shaped root = true ∧ plainTimes root = true ∧ inMs root = true ∧
    containersUntimed root = true ∧ shownAt (times 0 0 none root) 14000000 = [] ∧
    (convertBody { base := .clock, zero := 1000000, rd := exactReader } root).toOption.map (fun o => o.map (fun out => writtenAt out (14000000 - 1000000))) =
      some (some [[.text "a".toList]]) :=
  ⟨.elem { kind := .body } [.elem { kind := .div } [.elem { kind := .p, beg := sec 10 } [.elem { kind := .span, beg := sec 5 } [.text "a".toList]]]],
   by decide, by decide, by decide, by decide, by decide +kernel, by decide +kernel⟩

/-- Written media times have whole milliseconds. -/
theorem C43_false_microseconds : ∃ root, shaped root = true ∧ plainTimes root = true ∧ containersUntimed root = true ∧ beginsOnce root = true ∧
    shownAt (times 0 0 none root) 1200 = [] ∧
    (convertBody { base := .clock, zero := 0, rd := exactReader } root).toOption.map (fun o => o.map (fun out => writtenAt out 1200)) =
      some (some [[.text "a".toList]]) :=
  ⟨.elem { kind := .body } [.elem { kind := .div } [.elem { kind := .p, beg := some ⟨"1.5ms".toList, 1500⟩ } [.text "a".toList]]],
   by decide, by decide, by decide, by decide, by decide +kernel, by decide +kernel⟩

/-- The styles of body are dropped. -/
theorem C43_false_body_style : convertBody exMedia (.elem { kind := .body, style := ["s".toList] } [.elem { kind := .div } []]) =
    .ok (some (.elem { kind := .body } [.elem { kind := .div } []])) := rfl

/-- A div in a div, and a span in a span, make the conversion fail, and so does a time before media time zero. -/
theorem C43_false_nesting_and_early_times :
    convertBody exMedia (.elem { kind := .body } [.elem { kind := .div } [.elem { kind := .div } []]]) = .error .unrecognized ∧
    convertBody exMedia (.elem { kind := .body } [.elem { kind := .div } [.elem { kind := .p } [.elem { kind := .span } [.elem { kind := .span } []]]]]) = .error .unrecognized ∧
    convertBody exMedia (.elem { kind := .body } [.elem { kind := .div } [.elem { kind := .p, beg := sec 35999 } []]]) = .error .badTime :=
  ⟨rfl, rfl, rfl⟩

end Verif.Convert
