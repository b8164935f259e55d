import Verif.Convert.FedChainProps
import Verif.Node.ProducerProps

/-
C100: what the producer's blocks become at the other end of the chain: lemmas about its documents.
-/
namespace Verif.Convert

open Verif.Doc Verif.Time Verif.Node

/-! ### Availability -/

mutual
theorem times_early (a sync : Int) (bound : Option Int) (h0 : 0 ≤ a) (hs : a ≤ sync) : ∀ (n : Node Att), saneIn n = true →
    times a sync bound n = times 0 sync bound n
  | .text _, _ => rfl
  | .br, _ => rfl
  | .elem x kids, h => by
    simp only [saneIn, Bool.and_eq_true, decide_eq_true_eq] at h
    have hb : 0 ≤ (eff x.beg).getD 0 := by
      have := h.1.2
      cases hx : x.beg with
      | none => simp [eff]
      | some v =>
        rw [saneAtt, hx] at this
        simp at this
        simp only [eff]
        split <;> (simp; try omega)
    have hown : ownEnd a sync bound x = ownEnd 0 sync bound x := by
      unfold ownEnd preEnd baseEnd
      cases hk : x.kind with
      | body => exact absurd hk h.1.1
      | _ => rfl
    simp only [times, hown]
    rw [timesL_early a _ _ h0 (by omega) kids h.2]
    congr 2
    unfold compOf
    simp only [hown, ne_eq, not_true_eq_false, if_false]
    have : (if ¬ a = 0 then max (sync + (eff x.beg).getD 0) a else sync + (eff x.beg).getD 0) = sync + (eff x.beg).getD 0 := by
      split <;> omega
    rw [this]
theorem timesL_early (a sync : Int) (bound : Option Int) (h0 : 0 ≤ a) (hs : a ≤ sync) : ∀ (ns : List (Node Att)), saneInL ns = true →
    timesL a sync bound ns = timesL 0 sync bound ns
  | [], _ => rfl
  | n :: ns, h => by
    simp only [saneInL, Bool.and_eq_true] at h
    simp only [timesL, times_early a sync bound h0 hs n h.1, timesL_early a sync bound h0 hs ns h.2]
end

/-! ### The body of a produced document -/

/-- The span of a line. -/
def lineSpan (l : List Char) : Node Att := .elem { kind := .span, style := ["defaultStyle1".toList] } [.text l]

/-- The body of a produced document (producer.py:51-59, 92-100). -/
def madeBody (b d : TV) (content : List (Node Att)) : Node Att :=
  .elem { kind := .body, beg := some b, dur := some d }
    [.elem { kind := .div, region := some "bottomRegion".toList } [.elem { kind := .p, id := some "ID001".toList } content]]

theorem interleave_cons (l m : List Char) (ls : List (List Char)) :
    interleave (l :: m :: ls) = (interleave (m :: ls)).map (fun r => lineSpan l :: .br :: r) := by
  rw [interleave]
  · rfl
  · simp

/-- The content is made of spans of lines and line breaks. -/
theorem interleave_mem : ∀ (lines : List (List Char)) (c : List (Node Att)), interleave lines = some c →
    ∀ n ∈ c, n = .br ∨ ∃ l ∈ lines, n = lineSpan l
  | [], c, h => by simp [interleave] at h
  | [l], c, h => by
    simp only [interleave, Option.some.injEq] at h
    subst h
    intro n hn
    rw [List.mem_singleton] at hn
    exact .inr ⟨l, by simp, hn⟩
  | l :: m :: ls, c, h => by
    rw [interleave_cons, Option.map_eq_some_iff] at h
    obtain ⟨r, hr, rfl⟩ := h
    intro n hn
    simp only [List.mem_cons] at hn
    rcases hn with rfl | rfl | hn
    · exact .inr ⟨l, by simp, rfl⟩
    · exact .inl rfl
    · rcases interleave_mem (m :: ls) r hr n hn with h | ⟨x, hx, h⟩
      · exact .inl h
      · exact .inr ⟨x, List.mem_cons_of_mem _ hx, h⟩

/-- The begin that an element gets when the document comes at `a`. -/
theorem cut_begin (a : Int) {s : Int} (hs : 0 ≤ s) : (if a ≠ 0 then max s a else s) = max s a := by
  split <;> omega

theorem span_times_at (a : Int) {sync : Int} (hs : 0 ≤ sync) (e : Int) (l : List Char) :
    times a sync (some e) (lineSpan l) =
      .elem { att := { kind := .span, style := ["defaultStyle1".toList] }, comp := ⟨max sync a, some e⟩ } [.text l] := by
  have h := cut_begin a hs
  unfold lineSpan
  simp only [times, timesL, compOf, timedKids, ownEnd, preEnd, baseEnd, postBegin, show eff (none : Option TV) = none from rfl,
    Option.getD_none, Int.add_zero, h, Option.isNone_none, if_true]
  simp

theorem interleave_times_at (a : Int) {sync : Int} (hs : 0 ≤ sync) (e : Int) : ∀ (lines : List (List Char)) (c : List (Node Att)),
    interleave lines = some c → ∃ k, timedKids (timesL a sync (some e) c) = List.replicate (k + 1) ⟨max sync a, some e⟩
  | [], c, h => by simp [interleave] at h
  | [l], c, h => by
    simp only [interleave, Option.some.injEq] at h
    subst h
    have := span_times_at a hs e l
    unfold lineSpan at this
    rw [timesL, this]
    exact ⟨0, by simp [timesL, timedKids, badly]⟩
  | l :: m :: ls, c, h => by
    rw [interleave_cons, Option.map_eq_some_iff] at h
    obtain ⟨r, hr, rfl⟩ := h
    obtain ⟨k, h1⟩ := interleave_times_at a hs e (m :: ls) r hr
    rw [timesL, timesL, span_times_at a hs]
    refine ⟨k + 1, ?_⟩
    simp only [times, timedKids, h1]
    simp [badly, List.replicate_succ]

section
variable {lines : List (List Char)} {c : List (Node Att)} (hc : interleave lines = some c) (hv : ∀ l ∈ lines, LineShown l = true)
include hc hv

theorem made_shapedL : shapedL c = true ∧ c.all (fits .p) = true := by
  have hm := interleave_mem lines c hc
  clear hc
  induction c with
  | nil => exact ⟨rfl, rfl⟩
  | cons n ns ih =>
    obtain ⟨h1, h2⟩ := ih (fun n hn => hm n (List.mem_cons_of_mem _ hn))
    rcases hm n List.mem_cons_self with rfl | ⟨l, hl, rfl⟩
    · exact ⟨by simp [shapedL, shaped, h1], by rw [List.all_cons, h2]; rfl⟩
    · have : l ≠ [] := by rintro rfl; have := hv _ hl; simp [LineShown] at this
      exact ⟨by simp [shapedL, shaped, h1, lineSpan, fits, this], by rw [List.all_cons, h2]; rfl⟩

theorem made_linedL : linedL true c = true := by
  have hm := interleave_mem lines c hc
  clear hc
  induction c with
  | nil => rfl
  | cons n ns ih =>
    have h1 := ih (fun n hn => hm n (List.mem_cons_of_mem _ hn))
    rcases hm n List.mem_cons_self with rfl | ⟨l, hl, rfl⟩
    · simp [linedL, lined, h1]
    · have := hv _ hl
      simp only [LineShown, Bool.not_eq_true'] at this
      simp [linedL, lined, h1, lineSpan, items, Visible, this, isSpan]

omit hv in
theorem made_items : Words (items c) = false := by
  have hm := interleave_mem lines c hc
  clear hc
  induction c with
  | nil => rfl
  | cons n ns ih =>
    have h1 := ih (fun n hn => hm n (List.mem_cons_of_mem _ hn))
    rcases hm n List.mem_cons_self with rfl | ⟨l, hl, rfl⟩
    · simpa [items, Words] using h1
    · simpa [items, Words, lineSpan] using h1

omit hv in
theorem made_flatL : flatL c = true ∧ c.all (fitsD .p) = true := by
  have hm := interleave_mem lines c hc
  clear hc
  induction c with
  | nil => exact ⟨rfl, rfl⟩
  | cons n ns ih =>
    obtain ⟨h1, h2⟩ := ih (fun n hn => hm n (List.mem_cons_of_mem _ hn))
    rcases hm n List.mem_cons_self with rfl | ⟨l, hl, rfl⟩
    · exact ⟨by simp [flatL, flat, h1], by rw [List.all_cons, h2]; rfl⟩
    · exact ⟨by simp [flatL, flat, h1, lineSpan, fitsD], by rw [List.all_cons, h2]; rfl⟩

omit hv in
theorem made_plainL : saneInL c = true ∧ wellTimedL c = true ∧ inMsL c = true := by
  have hm := interleave_mem lines c hc
  clear hc
  induction c with
  | nil => exact ⟨rfl, rfl, rfl⟩
  | cons n ns ih =>
    obtain ⟨h1, h2, h3⟩ := ih (fun n hn => hm n (List.mem_cons_of_mem _ hn))
    rcases hm n List.mem_cons_self with rfl | ⟨l, hl, rfl⟩
    · exact ⟨by simp [saneInL, saneIn, h1], by simp [wellTimedL, wellTimed, h2], by simp [inMsL, inMs, h3]⟩
    · exact ⟨by simp [saneInL, saneIn, h1, lineSpan, saneAtt], by simp [wellTimedL, wellTimed, h2, lineSpan, badly],
        by simp [inMsL, inMs, h3, lineSpan]⟩

/-- What is read of the paragraph. -/
theorem made_reads (a : Int) {sync : Int} (hs : 0 ≤ sync) (e t : Int) (ht : max sync a ≤ t ∧ t < e) :
    readAtL t (timesL a sync (some e) c) = (lines.map Item.text).intersperse .br := by
  induction lines generalizing c with
  | nil => simp [interleave] at hc
  | cons l ls ih =>
    have hspan : readAt t (times a sync (some e) (lineSpan l)) = [.text l] := by
      rw [span_times_at a hs, readAt, if_pos (by simp only [Comp.at, Bool.and_eq_true, decide_eq_true_eq]; exact ht), readAtL, readAtL,
        readAt]; rfl
    cases ls with
    | nil =>
      simp only [interleave, Option.some.injEq] at hc
      subst hc
      have := hspan
      simp only [lineSpan] at this
      simp only [timesL, readAtL, this]
      rfl
    | cons m ls =>
      rw [interleave_cons, Option.map_eq_some_iff] at hc
      obtain ⟨r, hr, rfl⟩ := hc
      have := ih hr (fun x hx => hv x (List.mem_cons_of_mem _ hx))
      simp only [timesL, readAtL, hspan, times, readAt, this, List.map_cons, List.singleton_append]
      rw [List.intersperse_cons_cons]

end

/-- The validated body of a document that comes at `a`. -/
theorem made_times (a : Int) (b d : TV) (hb : 0 < b.delta) (hd : d.delta ≠ 0) {lines : List (List Char)} {c : List (Node Att)}
    (hc : interleave lines = some c) :
    times a 0 none (madeBody b d c) =
      .elem { att := { kind := .body, beg := some b, dur := some d }, comp := ⟨max b.delta a, some (b.delta + d.delta)⟩ }
        [.elem { att := { kind := .div, region := some "bottomRegion".toList }, comp := ⟨max b.delta a, some (b.delta + d.delta)⟩ }
          [.elem { att := { kind := .p, id := some "ID001".toList }, comp := ⟨max b.delta a, some (b.delta + d.delta)⟩ }
            (timesL a b.delta (some (b.delta + d.delta)) c)]] := by
  have hb0 : 0 ≤ b.delta := by omega
  have hb1 : b.delta ≠ 0 := by omega
  obtain ⟨k, h1⟩ := interleave_times_at a hb0 (b.delta + d.delta) lines c hc
  have hown : ownEnd a 0 none { kind := .body, beg := some b, dur := some d } = some (b.delta + d.delta) := by
    simp [ownEnd, preEnd, eff, hb1, hd, Int.add_comm]
  have hownd : ∀ r i, ownEnd a b.delta (some (b.delta + d.delta)) { kind := .div, region := r, id := i } = none := by
    intro r i; simp [ownEnd, preEnd, baseEnd, eff]
  have hownp : ∀ r i, ownEnd a b.delta (some (b.delta + d.delta)) { kind := .p, region := r, id := i } = none := by
    intro r i; simp [ownEnd, preEnd, baseEnd, eff]
  have hcut := cut_begin a hb0
  have hcp : ∀ (kd : Kind) r i, kd ≠ .body → ∀ k, compOf a b.delta (some (b.delta + d.delta)) { kind := kd, region := r, id := i }
      (List.replicate (k + 1) ⟨max b.delta a, some (b.delta + d.delta)⟩) = ⟨max b.delta a, some (b.delta + d.delta)⟩ := by
    intro kd r i hkd k
    have ho : ownEnd a b.delta (some (b.delta + d.delta)) { kind := kd, region := r, id := i } = none := by
      cases kd <;> first | exact absurd rfl hkd | simp [ownEnd, preEnd, baseEnd, eff]
    unfold compOf
    simp only [ho]
    rw [show eff (none : Option TV) = none from rfl]
    simp only [Option.getD_none, Int.add_zero, hkd, false_and, if_false, Option.isNone_none, if_true, hcut]
    rw [postBegin_replicate (b := max b.delta a) ⟨max b.delta a, some (b.delta + d.delta)⟩ k rfl, List.replicate_succ]
    simp only
    rw [← List.replicate_succ, maxEnd_replicate]
  have hp : times a b.delta (some (b.delta + d.delta)) (.elem { kind := .p, id := some "ID001".toList } c) =
      .elem { att := { kind := .p, id := some "ID001".toList }, comp := ⟨max b.delta a, some (b.delta + d.delta)⟩ }
        (timesL a b.delta (some (b.delta + d.delta)) c) := by
    rw [times, hownp]
    simp only [show eff (none : Option TV) = none from rfl, Option.getD_none, Int.add_zero, below, h1]
    rw [hcp .p none (some "ID001".toList) (by simp) k]
  have hdv : times a b.delta (some (b.delta + d.delta)) (.elem { kind := .div, region := some "bottomRegion".toList }
        [.elem { kind := .p, id := some "ID001".toList } c]) =
      .elem { att := { kind := .div, region := some "bottomRegion".toList }, comp := ⟨max b.delta a, some (b.delta + d.delta)⟩ }
        [.elem { att := { kind := .p, id := some "ID001".toList }, comp := ⟨max b.delta a, some (b.delta + d.delta)⟩ }
          (timesL a b.delta (some (b.delta + d.delta)) c)] := by
    rw [times, hownd]
    simp only [show eff (none : Option TV) = none from rfl, Option.getD_none, Int.add_zero, below, timesL, hp]
    congr 2
    exact hcp .div (some "bottomRegion".toList) none (by simp) 0
  unfold madeBody
  rw [times, hown]
  have he : eff (some b) = some b.delta := by simp [eff, hb1]
  simp only [he, Option.getD_some, Int.zero_add, below, timesL, hdv]
  congr 2
  unfold compOf
  simp only [hown, he, badly, Option.getD_some, Int.zero_add, hcut]
  simp

theorem made_sane (b d : TV) (hb : 0 ≤ b.delta) (hd : 0 ≤ d.delta) {lines : List (List Char)} {c : List (Node Att)}
    (hc : interleave lines = some c) : Sane (madeBody b d c) := by
  refine sane_of rfl ?_ ?_
  · simp [saneAtt, hb, hd]
  · simp [saneInL, saneIn, saneAtt, (made_plainL hc).1]

/-- A document that comes before its begin has the same times as without availability time. -/
theorem made_early (b d : TV) (a : Int) (h0 : 0 ≤ a) (hab : a ≤ b.delta) (hb : b.delta ≠ 0) {lines : List (List Char)}
    {c : List (Node Att)} (hc : interleave lines = some c) :
    validateDoc a (madeBody b d c) = validateDoc 0 (madeBody b d c) := by
  rw [validateDoc_eq, validateDoc_eq]
  congr 1
  have hown : ∀ x, ownEnd x 0 none { kind := .body, beg := some b, dur := some d } =
      ownEnd 0 0 none { kind := .body, beg := some b, dur := some d } := by
    intro x
    simp [ownEnd, preEnd, baseEnd, eff, hb]
  have he : eff (some b) = some b.delta := by simp [eff, hb]
  have hs : saneInL [(.elem { kind := .div, region := some "bottomRegion".toList } [.elem { kind := .p, id := some "ID001".toList } c] : Node Att)]
      = true := by simp [saneInL, saneIn, saneAtt, (made_plainL hc).1]
  unfold madeBody
  rw [times, times, hown a]
  simp only [he, Option.getD_some, Int.zero_add]
  rw [timesL_early a b.delta _ h0 hab _ hs]
  congr 2
  unfold compOf
  simp only [hown a, he, Option.getD_some, Int.zero_add, ne_eq, not_true_eq_false, if_false]
  have : (if ¬ a = 0 then max b.delta a else b.delta) = b.delta := by split <;> omega
  rw [this]

/-- Styles and regions that the body refers to. -/
theorem made_refs (b d : TV) {lines : List (List Char)} {c : List (Node Att)} (hc : interleave lines = some c) {anc : List Att} {x : Att}
    {kids : List (Node Att)} (h : Reach (madeBody b d c) anc (.elem x kids)) :
    (∀ s ∈ x.style, s = "defaultStyle1".toList) ∧ ∀ r, x.region = some r → r = "bottomRegion".toList := by
  have hm := interleave_mem lines c hc
  rcases reach_cons h with ⟨_, h2⟩ | ⟨k, hk, _, _, h2⟩
  · injection h2 with h2 _; subst h2; exact ⟨by simp, by simp⟩
  rw [List.mem_singleton] at hk
  subst hk
  rcases reach_cons h2 with ⟨_, h3⟩ | ⟨k, hk, _, _, h3⟩
  · injection h3 with h3 _; subst h3; exact ⟨by simp, by simp⟩
  rw [List.mem_singleton] at hk
  subst hk
  rcases reach_cons h3 with ⟨_, h4⟩ | ⟨k, hk, _, _, h4⟩
  · injection h4 with h4 _; subst h4; exact ⟨by simp, by simp⟩
  rcases hm k hk with rfl | ⟨l, _, rfl⟩
  · cases reach_all (P := fun n => n = Node.br) (fun _ _ _ h _ => by cases h) rfl h4
  · rcases reach_cons h4 with ⟨_, h5⟩ | ⟨k, hk, _, _, h5⟩
    · injection h5 with h5 _; subst h5; exact ⟨by simp, by simp⟩
    · rw [List.mem_singleton] at hk
      subst hk
      cases reach_all (P := fun n => n = Node.text l) (fun _ _ _ h _ => by cases h) rfl h5

end Verif.Convert
