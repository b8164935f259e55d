import Verif.Doc.TimingPath
import Verif.Time.Props

/-! Property theorems about computed times (C14–C18). -/
namespace Verif.Doc

/-! ### C15 -/

/-- C15.  Validating any content in any context succeeds (no `LogicError`, no pop from an empty
stack) and leaves the context exactly as it was; the content itself only gains computed times. -/
theorem C15_context_restored (c : Ctx) (n : Node Att) :
    ∃ v, validate c n = .ok (c, v) ∧ erase v = n := by
  refine ⟨_, validate_eq n c, ?_⟩
  have key : ∀ (n : Node Att) (avail sync : Int) (bound : Option Int), erase (times avail sync bound n) = n := by
    intro n avail sync bound
    exact (Node.rec
      (motive_1 := fun n => ∀ sync bound, erase (times avail sync bound n) = n)
      (motive_2 := fun ns => ∀ sync bound, eraseL (timesL avail sync bound ns) = ns)
      (fun s _ _ => rfl) (fun _ _ => rfl)
      (fun a kids ih sync bound => by simp only [times, erase, ih])
      (fun _ _ => rfl)
      (fun k ks ih1 ih2 sync bound => by simp only [timesL, eraseL, ih1, ih2]) n) sync bound
  exact key n _ _ _

/-- C15, siblings: what validation computes for a later child does not depend on the attributes and
content of an earlier one. -/
theorem C15_siblings_independent (c : Ctx) (n₁ n₂ k : Node Att) :
    (validateL c [n₁, k]).map (fun r => r.2.getLast?) = (validateL c [n₂, k]).map (fun r => r.2.getLast?) := by
  rw [validateL_eq, validateL_eq]; rfl

/-- A timing value for examples: `n` seconds, as a timecount. -/
def sec (n : Nat) : Option TV := some ⟨Verif.Time.digs n ++ ['s'], n * 1000000⟩

example : ∃ v, validate ⟨7, [3], [90], 2⟩
    (.elem { kind := .p, beg := sec 5, fin := sec 8 } [.text "a".toList]) = .ok (⟨7, [3], [90], 2⟩, v) :=
  ⟨_, rfl⟩

/-! ### Helper facts about sane documents -/

theorem reach_prefix {α : Type} {root : Node α} {anc : List α} {n : Node α} (h : Reach root anc n) :
    ∀ pre y rest, anc = pre ++ y :: rest → ∃ kids, Reach root pre (.elem y kids) := by
  induction h with
  | here => intro pre y rest he; simp at he
  | @step anc x kids k hr hk ih =>
    intro pre y rest he
    rcases List.eq_nil_or_concat rest with rfl | ⟨r, z, rfl⟩
    · obtain ⟨h1, h2⟩ := List.append_inj' he rfl
      injection h2 with h2
      subst h1 h2
      exact ⟨kids, hr⟩
    · rw [List.concat_eq_append] at he
      have he' : anc ++ [x] = (pre ++ y :: r) ++ [z] := by rw [he]; simp
      obtain ⟨h1, _⟩ := List.append_inj' he' rfl
      exact ih pre y r h1

theorem sane_kinds {avail : Int} {root : Node Att} (hs : Sane root) {anc : List Lab} {x : Lab}
    {kids : List (Node Lab)} (h : Reach (times avail 0 none root) anc (.elem x kids)) :
    ∀ pre y rest, anc ++ [x] = pre ++ y :: rest → (y.att.kind = .body ↔ pre = []) := by
  intro pre y rest he
  have hreach : ∃ ks, Reach (times avail 0 none root) pre (.elem y ks) := by
    rcases List.eq_nil_or_concat rest with rfl | ⟨r, z, rfl⟩
    · obtain ⟨h1, h2⟩ := List.append_inj' he rfl
      injection h2 with h2
      subst h1 h2
      exact ⟨kids, h⟩
    · rw [List.concat_eq_append] at he
      have he' : anc ++ [x] = (pre ++ y :: r) ++ [z] := by rw [he]; simp
      obtain ⟨h1, _⟩ := List.append_inj' he' rfl
      exact reach_prefix h pre y r h1
  obtain ⟨ks, hr⟩ := hreach
  obtain ⟨k0, hr0, _⟩ := reach_comp hr
  constructor
  · intro hk
    have := hs.inner _ _ _ hr0 hk
    cases pre with
    | nil => rfl
    | cons a as => simp at this
  · intro hp
    subst hp
    obtain ⟨a, kk, hroot, hb⟩ := hs.body
    rw [hroot] at hr0
    rcases reach_cons hr0 with ⟨_, h2⟩ | ⟨_, _, _, h2, _⟩
    · injection h2 with h2 _; rw [h2]; exact hb
    · simp at h2

theorem eff_nonneg {o : Option TV} (h : ∀ v, o = some v → 0 ≤ v.delta) : 0 ≤ (eff o).getD 0 := by
  cases o with
  | none => simp [eff]
  | some v =>
    have := h v rfl
    by_cases hz : v.delta = 0 <;> simp [eff, hz, this]

theorem sane_absBegin {avail : Int} {root : Node Att} (hs : Sane root) {anc : List Lab} {n : Node Lab}
    (h : Reach (times avail 0 none root) anc n) : 0 ≤ absBegin anc := by
  have hall : ∀ pre y rest, anc = pre ++ y :: rest → 0 ≤ begOf y := by
    intro pre y rest he
    obtain ⟨ks, hr⟩ := reach_prefix h pre y rest he
    obtain ⟨k0, hr0, _⟩ := reach_comp hr
    exact eff_nonneg (fun v hv => hs.nonneg _ _ _ hr0 v (.inl hv))
  clear h hs
  induction anc with
  | nil => simp [absBegin]
  | cons y ys ih =>
    have h1 := hall [] y ys rfl
    have h2 := ih (fun pre z rest he => hall (y :: pre) z rest (by rw [he]; rfl))
    simp only [absBegin, List.map_cons, List.sum_cons] at *
    omega

theorem sane_begOf {avail : Int} {root : Node Att} (hs : Sane root) {anc : List Lab} {x : Lab}
    {kids : List (Node Lab)} (h : Reach (times avail 0 none root) anc (.elem x kids)) : 0 ≤ begOf x := by
  obtain ⟨k0, hr0, _⟩ := reach_comp h
  exact eff_nonneg (fun v hv => hs.nonneg _ _ _ hr0 v (.inl hv))

theorem postBegin_ge (cb : Int) (kids : List Comp) : cb ≤ postBegin cb kids := by
  unfold postBegin
  cases kids with
  | nil => simp
  | cons k ks => simp only; split <;> omega

theorem sync_ctx {avail : Int} (anc : List Lab) : (ctxAt avail (0, none) anc).1 = absBegin anc := by
  rw [ctxAt_fst]; simp

/-- The begin of an element that is not a badly timed body. -/
theorem comp_b {avail : Int} {root : Node Att} (hs : Sane root) {anc : List Lab} {x : Lab}
    {kids : List (Node Lab)} (h : Reach (times avail 0 none root) anc (.elem x kids))
    (hroot : anc = [] → badly x.att = false) :
    x.comp.b = if (eff x.att.beg).isNone then postBegin (max avail (absBegin (anc ++ [x]))) (timedKids kids)
      else max avail (absBegin (anc ++ [x])) := by
  obtain ⟨k0, hr0, hc, _⟩ := reach_comp h
  have h1 := sane_absBegin hs h
  have h2 := sane_begOf hs h
  have hnb : ¬ (x.att.kind = .body ∧ badly x.att = true) := by
    rintro ⟨hk, hb⟩
    have := (sane_kinds hs h anc x [] rfl).mp hk
    rw [hroot this] at hb
    simp at hb
  rw [hc]
  unfold compOf
  simp only [if_neg hnb]
  rw [sync_ctx]
  have e : (if avail ≠ 0 then max (absBegin anc + (eff x.att.beg).getD 0) avail
      else absBegin anc + (eff x.att.beg).getD 0) = max avail (absBegin (anc ++ [x])) := by
    rw [absBegin_snoc]
    change _ = max avail (absBegin anc + (eff x.att.beg).getD 0)
    change 0 ≤ (eff x.att.beg).getD 0 at h2
    split <;> omega
  rw [e]

theorem comp_e {avail : Int} {root : Node Att} (hs : Sane root) {anc : List Lab} {x : Lab}
    {kids : List (Node Lab)} (h : Reach (times avail 0 none root) anc (.elem x kids))
    (hroot : anc = [] → badly x.att = false) :
    x.comp.e = match ownEnd avail (absBegin anc) (ctxAt avail (0, none) anc).2 x.att with
      | some e => some e
      | none => match timedKids kids with
        | [] => (ctxAt avail (0, none) anc).2
        | k :: ks => maxEnd (k :: ks) := by
  obtain ⟨k0, hr0, hc, _⟩ := reach_comp h
  have hnb : ¬ (x.att.kind = .body ∧ badly x.att = true) := by
    rintro ⟨hk, hb⟩
    have := (sane_kinds hs h anc x [] rfl).mp hk
    rw [hroot this] at hb
    simp at hb
  rw [hc]
  unfold compOf
  simp only [if_neg hnb]
  rw [sync_ctx]
  generalize ownEnd avail (absBegin anc) (ctxAt avail (0, none) anc).snd x.att = oe
  generalize timedKids kids = tk
  cases oe <;> cases tk <;> rfl

theorem goodKid_reach {avail : Int} {root : Node Att} {anc : List Lab} {x : Lab}
    {kids : List (Node Lab)} (h : Reach (times avail 0 none root) anc (.elem x kids)) {y : Lab} {ys : List (Node Lab)}
    (hy : Node.elem y ys ∈ kids) : Reach (times avail 0 none root) (anc ++ [x]) (.elem y ys) := .step h hy

/-- A child never begins before its container's own begin. -/
theorem kid_b_ge {avail : Int} {root : Node Att} (hs : Sane root) {anc : List Lab} {x : Lab}
    {kids : List (Node Lab)} (h : Reach (times avail 0 none root) anc (.elem x kids)) {y : Lab} {ys : List (Node Lab)}
    (hy : Node.elem y ys ∈ kids) : max avail (absBegin (anc ++ [x])) ≤ y.comp.b := by
  have hr := goodKid_reach h hy
  rw [comp_b hs hr (by simp)]
  have h2 := sane_begOf hs hr
  have e := absBegin_snoc (anc ++ [x]) y
  have h3 := postBegin_ge (max avail (absBegin (anc ++ [x] ++ [y]))) (timedKids ys)
  split <;> omega

theorem ownEnds_iff {avail : Int} {root : Node Att} (hs : Sane root) {anc : List Lab} {x : Lab}
    {kids : List (Node Lab)} (h : Reach (times avail 0 none root) anc (.elem x kids)) :
    ownEnds avail (absBegin anc) x ≠ [] ↔
      ownEnd avail (absBegin anc) (ctxAt avail (0, none) anc).2 x.att ≠ none := by
  have hk := sane_kinds hs h
  by_cases hb : x.att.kind = .body
  · have ha := (hk anc x [] rfl).mp hb
    subst ha
    simpa [absBegin, ctxAt] using (below_body (avail := avail) hb).2
  · have hbound := ctxAt_bound (avail := avail) anc (fun pre y rest he =>
      hk pre y (rest ++ [x]) (by rw [he]; simp))
    exact (below_inner hb hbound).2

/-! ### C14 -/

/-- C14.  After validating a document, every element's computed begin and end obey the begin and end
rules.  Zero-valued begin, end and dur attributes count as absent (the full property without this
reading is false: `C14_false_zero_begin`, `C14_false_zero_end`), and a badly timed body is excepted
(`C16_false_badly_timed_body`). -/
theorem C14_computed_times_partial (avail : Int) (root : Node Att) (hs : Sane root) :
    ∃ v, validateDoc avail root = .ok v ∧ erase v = root ∧
      ∀ anc x kids, Reach v anc (.elem x kids) → (anc = [] → badly x.att = false) →
        BeginRule avail anc x kids ∧ EndRule avail anc x kids := by
  refine ⟨times avail 0 none root, ?_, ?_, ?_⟩
  · simp [validateDoc, validate_eq, initCtx, Except.map]
  · obtain ⟨v, hv, he⟩ := C15_context_restored (initCtx avail) root
    rw [validate_eq] at hv
    injection hv with hv
    injection hv with _ hv
    rw [← hv] at he
    exact he
  · intro anc x kids h hroot
    refine ⟨⟨?_, ?_⟩, ⟨?_, ?_⟩⟩
    · intro hc
      rw [comp_b hs h hroot]
      rcases hc with hc | hc
      · rw [if_neg (by rw [Option.isNone_iff_eq_none]; intro hn; rw [hn] at hc; simp at hc)]
      · rw [timedKids_nil.mpr hc]
        split <;> rfl
    · rintro ⟨hn, y, hy⟩
      rw [comp_b hs h hroot, if_pos (by rw [hn]; rfl)]
      cases htk : timedKids kids with
      | nil => exact absurd hy (timedKids_nil.mp htk y)
      | cons k ks =>
        obtain ⟨⟨c, hc1, hc2⟩, hmin⟩ := minBegin_spec ks k
        have hge : max avail (absBegin (anc ++ [x])) ≤ minBegin k ks := by
          rw [hc2]
          rw [← htk] at hc1
          obtain ⟨z, ⟨zs, hz, _⟩, hzc⟩ := mem_timedKids.mp hc1
          rw [← hzc]
          exact kid_b_ge hs h hz
        have e : postBegin (max avail (absBegin (anc ++ [x]))) (k :: ks) = minBegin k ks := by
          simp only [postBegin]
          split <;> omega
        rw [e]
        refine ⟨?_, ?_⟩
        · rw [← htk] at hc1
          obtain ⟨z, hz, hzc⟩ := mem_timedKids.mp hc1
          exact ⟨z, hz, by rw [hzc]; exact hc2⟩
        · intro z hz
          have := mem_timedKids.mpr ⟨z, hz, rfl⟩
          rw [htk] at this
          exact hmin _ this
    · intro hc
      have hk := sane_kinds hs h
      have hb := ctxAt_bound (avail := avail) (anc ++ [x]) hk
      rw [ctxAt_snoc, sync_ctx] at hb
      simp only at hb
      have hce := comp_e hs h hroot
      generalize hoe : ownEnd avail (absBegin anc) (ctxAt avail (0, none) anc).snd x.att = oe at hb hce
      cases oe with
      | some e => simp only at hce; rw [hce]; exact hb
      | none =>
        simp only [below] at hb hce
        rcases hc with hc | hc
        · have := (ownEnds_iff hs h).mp hc
          exact absurd hoe this
        · rw [timedKids_nil.mpr hc] at hce
          simp only at hce
          rw [hce]; exact hb
    · rintro ⟨hn, y, hy⟩
      have hce := comp_e hs h hroot
      have hoe : ownEnd avail (absBegin anc) (ctxAt avail (0, none) anc).snd x.att = none := by
        apply Classical.byContradiction
        intro hh
        exact (ownEnds_iff hs h).mpr hh hn
      rw [hoe] at hce
      simp only at hce
      cases htk : timedKids kids with
      | nil => exact absurd hy (timedKids_nil.mp htk y)
      | cons k ks =>
        rw [htk] at hce
        simp only at hce
        obtain ⟨h1, h2⟩ := maxEnd_spec (k :: ks) (by simp)
        rw [hce]
        refine ⟨?_, ?_⟩
        · rw [h1, ← htk]
          constructor
          · rintro ⟨c, hc, he⟩
            obtain ⟨z, hz, hzc⟩ := mem_timedKids.mp hc
            exact ⟨z, hz, by rw [hzc]; exact he⟩
          · rintro ⟨z, hz, he⟩
            exact ⟨z.comp, mem_timedKids.mpr ⟨z, hz, rfl⟩, he⟩
        · intro m hm
          obtain ⟨⟨c, hc, he⟩, hall⟩ := h2 m hm
          rw [← htk] at hc hall
          refine ⟨?_, ?_⟩
          · obtain ⟨z, hz, hzc⟩ := mem_timedKids.mp hc
            exact ⟨z, hz, by rw [hzc]; exact he⟩
          · intro z m' hz hm'
            exact hall z.comp (mem_timedKids.mpr ⟨z, hz, rfl⟩) m' hm'

/-- Example document: body (no times) > div 10s-60s > p 5s-20s, p 30s (open), and a badly timed p. -/
def exDoc : Node Att :=
  .elem { kind := .body } [
    .elem { kind := .div, beg := sec 10, fin := sec 60 } [
      .elem { kind := .p, beg := sec 5, fin := sec 20 } [.text "a".toList],
      .elem { kind := .p, beg := sec 30 } [.text "b".toList],
      .elem { kind := .p, beg := sec 50, fin := sec 40 } [.text "c".toList]]]

theorem reach_list {α : Type} {root : Node α} {anc : List α} {n : Node α} (h : Reach root anc n) :
    (anc = [] ∧ n = root) ∨ ∃ x kids, root = .elem x kids ∧ ∃ k ∈ kids, ∃ rest, anc = x :: rest ∧ Reach k rest n := by
  cases root with
  | text s =>
    left
    generalize hr : Node.text s = r at h
    induction h with
    | here => exact ⟨rfl, rfl⟩
    | step _ _ ih => rw [← hr] at ih; simp at ih
  | br =>
    left
    generalize hr : (Node.br : Node α) = r at h
    induction h with
    | here => exact ⟨rfl, rfl⟩
    | step _ _ ih => rw [← hr] at ih; simp at ih
  | elem x kids =>
    rcases reach_cons h with h | ⟨k, hk, rest, h1, h2⟩
    · exact .inl h
    · exact .inr ⟨x, kids, rfl, k, hk, rest, h1, h2⟩

mutual
/-- Checkable form of `Sane` below the body. -/
def saneIn : Node Att → Bool
  | .elem a kids => decide (a.kind ≠ .body) && saneAtt a && saneInL kids
  | _ => true
def saneInL : List (Node Att) → Bool
  | [] => true
  | k :: ks => saneIn k && saneInL ks
/-- No negative time. -/
def saneAtt (a : Att) : Bool := [a.beg, a.fin, a.dur].all (fun o => o.all (fun v => decide (0 ≤ v.delta)))
end

theorem saneInL_mem {ks : List (Node Att)} (h : saneInL ks = true) {k : Node Att} (hk : k ∈ ks) : saneIn k = true := by
  induction ks with
  | nil => simp at hk
  | cons y ys ih =>
    simp only [saneInL, Bool.and_eq_true] at h
    rcases List.mem_cons.mp hk with rfl | hk
    · exact h.1
    · exact ih h.2 hk

theorem saneAtt_spec {a : Att} (h : saneAtt a = true) :
    ∀ v, a.beg = some v ∨ a.fin = some v ∨ a.dur = some v → 0 ≤ v.delta := by
  simp only [saneAtt, List.all_cons, List.all_nil, Bool.and_true, Bool.and_eq_true] at h
  rintro v (hv | hv | hv) <;> simp [hv] at h <;> omega

theorem saneIn_reach {k : Node Att} (h : saneIn k = true) {anc : List Att} {a : Att} {kids : List (Node Att)}
    (hr : Reach k anc (.elem a kids)) : a.kind ≠ .body ∧ saneAtt a = true := by
  have key : ∀ (anc : List Att) (n : Node Att), Reach k anc n → saneIn n = true := by
    intro anc n hr
    induction hr with
    | here => exact h
    | step _ hm ih =>
      simp only [saneIn, Bool.and_eq_true] at ih
      exact saneInL_mem ih.2 hm
  have := key _ _ hr
  simp only [saneIn, Bool.and_eq_true, decide_eq_true_eq] at this
  exact this.1

/-- A document checks as sane. -/
theorem sane_of {a : Att} {kids : List (Node Att)} (hk : a.kind = .body) (ha : saneAtt a = true)
    (h : saneInL kids = true) : Sane (.elem a kids) := by
  constructor
  · intro anc x ks hr
    rcases reach_cons hr with ⟨_, h2⟩ | ⟨k, hk, rest, h1, h2⟩
    · injection h2 with h2 _; subst h2; exact saneAtt_spec ha
    · exact saneAtt_spec (saneIn_reach (saneInL_mem h hk) h2).2
  · exact ⟨a, kids, rfl, hk⟩
  · intro anc x ks hr hb
    rcases reach_cons hr with ⟨h1, _⟩ | ⟨k, hk, rest, h1, h2⟩
    · exact h1
    · exact absurd hb (saneIn_reach (saneInL_mem h hk) h2).1

theorem exDoc_sane : Sane exDoc := sane_of rfl (by decide) (by decide)

mutual
/-- The computed times of the elements of a validated document, in document order. -/
def comps : Node Lab → List Comp
  | .elem x kids => x.comp :: compsL kids
  | _ => []
def compsL : List (Node Lab) → List Comp
  | [] => []
  | k :: ks => comps k ++ compsL ks
end

/-- Computed times of the example with availability 20s: the body and div begin when the first of
their children does, and the open p ends with the div. -/
example : (validateDoc 20000000 exDoc).map comps = .ok
    [⟨20000000, some 60000000⟩, ⟨20000000, some 60000000⟩, ⟨20000000, some 30000000⟩,
     ⟨40000000, some 60000000⟩, ⟨60000000, some 50000000⟩] := by decide +kernel

/-- An explicit begin of zero does not count: the container is moved to its first child although it
specifies that it begins at zero. -/
theorem C14_false_zero_begin : ∃ root, Sane root ∧
    (∃ kids, root = .elem { kind := .body, beg := sec 0 } kids) ∧
    (validateDoc 0 root).map comps =
      .ok [⟨5000000, some 8000000⟩, ⟨5000000, some 8000000⟩, ⟨5000000, some 8000000⟩] :=
  ⟨.elem { kind := .body, beg := sec 0 } [.elem { kind := .div } [
      .elem { kind := .p, beg := sec 5, fin := sec 8 } [.text "a".toList]]],
    sane_of rfl (by decide) (by decide), ⟨_, rfl⟩, by decide +kernel⟩

/-- An explicit end of zero does not count: the element stays active. -/
theorem C14_false_zero_end : ∃ root, Sane root ∧
    (∃ kids, root = .elem { kind := .body, fin := sec 0 } kids) ∧
    (validateDoc 0 root).map comps = .ok [⟨0, none⟩, ⟨0, none⟩, ⟨0, none⟩] :=
  ⟨.elem { kind := .body, fin := sec 0 } [.elem { kind := .div } [
      .elem { kind := .p } [.text "a".toList]]],
    sane_of rfl (by decide) (by decide), ⟨_, rfl⟩, by decide +kernel⟩

/-! ### C16 -/

/-- No element at or below `n` is a body. -/
def NoBody (n : Node Att) : Prop := ∀ anc a kids, Reach n anc (.elem a kids) → a.kind ≠ .body

theorem NoBody.kid {a : Att} {kids : List (Node Att)} (h : NoBody (.elem a kids)) {k : Node Att} (hk : k ∈ kids) :
    NoBody k := fun _ _ _ hr => h _ _ _ (reach_trans .here hk hr)

theorem ownEnd_le {avail sync m e : Int} {a : Att} (hk : a.kind ≠ .body)
    (h : ownEnd avail sync (some m) a = some e) : e ≤ m := by
  unfold ownEnd preEnd baseEnd at h
  cases hkk : a.kind <;> simp only [hkk] at h hk <;> try exact absurd rfl hk
  all_goals
    cases hf : eff a.fin <;> simp only [hf, Option.toList, reduceCtorEq] at h
    injection h with h
    omega

mutual
theorem times_bound : ∀ (n : Node Att) (avail sync m : Int) (x : Lab) (ks : List (Node Lab)), NoBody n →
    times avail sync (some m) n = .elem x ks → ∃ e, x.comp.e = some e ∧ e ≤ m
  | .text _, _, _, _, _, _, _, h => by simp [times] at h
  | .br, _, _, _, _, _, _, h => by simp [times] at h
  | .elem a kids, avail, sync, m, x, ks, hnb, h => by
    have hk : a.kind ≠ .body := hnb [] a kids .here
    simp only [times, Node.elem.injEq] at h
    obtain ⟨h1, h2⟩ := h
    subst h1
    have hnk : ¬ (a.kind = .body ∧ badly a = true) := fun hh => hk hh.1
    simp only [compOf, if_neg hnk]
    cases ho : ownEnd avail sync (some m) a with
    | some e => exact ⟨e, rfl, ownEnd_le hk ho⟩
    | none =>
      simp only [below]
      have hl := timesL_bound kids avail (sync + (eff a.beg).getD 0) m (fun k hk' => hnb.kid hk')
      generalize timedKids (timesL avail (sync + (eff a.beg).getD 0) (some m) kids) = tk at hl
      cases tk with
      | nil => exact ⟨m, rfl, Int.le_refl m⟩
      | cons c cs =>
        simp only
        obtain ⟨h3, h4⟩ := maxEnd_spec (c :: cs) (by simp)
        cases hm : maxEnd (c :: cs) with
        | none =>
          obtain ⟨d, hd, he⟩ := h3.mp hm
          obtain ⟨e, he', _⟩ := hl d hd
          rw [he] at he'; simp at he'
        | some e =>
          obtain ⟨⟨d, hd, he⟩, _⟩ := h4 e hm
          obtain ⟨e', he', hle⟩ := hl d hd
          rw [he] at he'
          injection he' with he'
          exact ⟨e, rfl, by omega⟩
theorem timesL_bound : ∀ (ns : List (Node Att)) (avail sync m : Int), (∀ k ∈ ns, NoBody k) →
    ∀ c ∈ timedKids (timesL avail sync (some m) ns), ∃ e, c.e = some e ∧ e ≤ m
  | [], _, _, _, _, _, h => by simp [timesL, timedKids] at h
  | n :: ns, avail, sync, m, hnb, c, h => by
    simp only [timesL] at h
    have ih := timesL_bound ns avail sync m (fun k hk => hnb k (List.mem_cons_of_mem _ hk))
    cases hn : times avail sync (some m) n with
    | text s => rw [hn] at h; exact ih c h
    | br => rw [hn] at h; exact ih c h
    | elem x ks =>
      rw [hn] at h
      simp only [timedKids] at h
      split at h
      · exact ih c h
      · rcases List.mem_cons.mp h with rfl | h
        · exact times_bound n avail sync m x ks (hnb n List.mem_cons_self) hn
        · exact ih c h
end

theorem sane_noBody {root : Node Att} (hs : Sane root) {anc : List Att} {n : Node Att} (h : Reach root anc n)
    (hne : anc ≠ []) : NoBody n := by
  intro anc' a kids hr hb
  have := hs.inner _ _ _ (reach_append h hr) hb
  simp at this
  exact hne this.1

theorem pathEnds_append (avail : Int) (ys : List Lab) : ∀ (xs : List Lab) (base : Int),
    pathEnds avail base (xs ++ ys) = pathEnds avail base xs ++ pathEnds avail (base + absBegin xs) ys := by
  intro xs
  induction xs with
  | nil => intro base; simp [pathEnds, absBegin]
  | cons x xs ih =>
    intro base
    simp only [List.cons_append, pathEnds]
    rw [ih, List.append_assoc]
    congr 3
    simp only [absBegin, List.map_cons, List.sum_cons]
    omega

theorem validateDoc_eq (avail : Int) (root : Node Att) : validateDoc avail root = .ok (times avail 0 none root) := by
  simp [validateDoc, validate_eq, initCtx, Except.map]

/-- Below an element with an end in force, everything ends by then. -/
theorem bounded_by_path {avail : Int} {root : Node Att} (hs : Sane root) {anc : List Lab} {x : Lab}
    {kids : List (Node Lab)} (h : Reach (times avail 0 none root) anc (.elem x kids)) (hne : anc ≠ [])
    {m : Int} (hm : (ctxAt avail (0, none) anc).2 = some m) : ∃ e, x.comp.e = some e ∧ e ≤ m := by
  obtain ⟨n0, hr, heq⟩ := reach_times h
  rw [hm] at heq
  exact times_bound n0 _ _ _ _ _ (sane_noBody hs hr (by simpa using hne)) heq.symm

/-- C16.  In a validated document no element begins before the availability time, and every element
ends no later than each end specified by itself or by any element around it, resolved against that
element's parent.  The availability part excepts a badly timed body
(`C16_false_badly_timed_body`). -/
theorem C16_available_and_bounded_partial (avail : Int) (root : Node Att) (hs : Sane root) :
    ∃ v, validateDoc avail root = .ok v ∧
      ∀ anc x kids, Reach v anc (.elem x kids) →
        ((anc = [] → badly x.att = false) → avail ≤ x.comp.b) ∧
        (∀ pre y rest, anc = pre ++ y :: rest → ∀ m ∈ ownEnds avail (absBegin pre) y,
          ∃ e, x.comp.e = some e ∧ e ≤ m) ∧
        ((anc = [] → badly x.att = false) → ∀ m ∈ ownEnds avail (absBegin anc) x,
          ∃ e, x.comp.e = some e ∧ e ≤ m) := by
  refine ⟨_, validateDoc_eq avail root, ?_⟩
  intro anc x kids h
  refine ⟨?_, ?_, ?_⟩
  · intro hroot
    rw [comp_b hs h hroot]
    have := postBegin_ge (max avail (absBegin (anc ++ [x]))) (timedKids kids)
    split <;> omega
  · intro pre y rest he m hm
    have hne : anc ≠ [] := by rw [he]; simp
    have hb := ctxAt_bound (avail := avail) anc (fun p z r he' =>
      sane_kinds hs h p z (r ++ [x]) (by rw [he']; simp))
    have hmem : m ∈ pathEnds avail 0 anc := by
      rw [he, pathEnds_append]
      simp only [pathEnds, List.mem_append]
      right; left
      simpa using hm
    cases hc : (ctxAt avail (0, none) anc).2 with
    | none => rw [hc] at hb; simp only [Earliest] at hb; rw [hb] at hmem; simp at hmem
    | some m' =>
      rw [hc] at hb
      obtain ⟨e, he1, he2⟩ := bounded_by_path hs h hne hc
      exact ⟨e, he1, Int.le_trans he2 (hb.2 m hmem)⟩
  · intro hroot m hm
    obtain ⟨v, hv, _, hrules⟩ := C14_computed_times_partial avail root hs
    rw [validateDoc_eq] at hv
    injection hv with hv
    subst hv
    have hend := (hrules anc x kids h hroot).2.1 (.inl (fun hn => by rw [hn] at hm; simp at hm))
    rw [pathEnds_snoc] at hend
    have hmem : m ∈ pathEnds avail 0 anc ++ ownEnds avail (0 + absBegin anc) x := by
      rw [List.mem_append]; right; simpa using hm
    cases hc : x.comp.e with
    | none => rw [hc] at hend; simp only [Earliest] at hend; rw [hend] at hmem; simp at hmem
    | some m' => rw [hc] at hend; exact ⟨m', rfl, hend.2 m hmem⟩

example : Sane exDoc ∧ (validateDoc 20000000 exDoc).map (fun v => (comps v).map Comp.b) =
    .ok [20000000, 20000000, 20000000, 40000000, 60000000] := ⟨exDoc_sane, by decide +kernel⟩

/-- A body whose end is not after its begin is given a computed begin of zero, before the document is
available, and no end. -/
theorem C16_false_badly_timed_body : ∃ root, Sane root ∧
    (validateDoc 20000000 root).map comps = .ok [⟨0, none⟩] :=
  ⟨.elem { kind := .body, beg := sec 50, fin := sec 40 } [], sane_of rfl (by decide) (by decide), by decide⟩

/-! ### C17 -/

/-- An element is counted if neither it nor an element between it and the body is excluded as badly
timed. -/
def Counted (anc : List Lab) (x : Lab) : Prop := ∀ y ∈ (anc ++ [x]).tail, badly y.att = false

/-- The interval of `x` contains that of `y`. -/
def Covers (x y : Comp) : Prop := x.b ≤ y.b ∧ ∀ ex, x.e = some ex → ∃ ey, y.e = some ey ∧ ey ≤ ex

theorem Covers.trans {x y z : Comp} (h1 : Covers x y) (h2 : Covers y z) : Covers x z := by
  refine ⟨Int.le_trans h1.1 h2.1, ?_⟩
  intro ex hx
  obtain ⟨ey, hy, hle⟩ := h1.2 ex hx
  obtain ⟨ez, hz, hle'⟩ := h2.2 ey hy
  exact ⟨ez, hz, by omega⟩

theorem covers_kid {avail : Int} {root : Node Att} (hs : Sane root) {anc : List Lab} {x : Lab}
    {kids : List (Node Lab)} (h : Reach (times avail 0 none root) anc (.elem x kids))
    (hroot : anc = [] → badly x.att = false) {y : Lab} (hy : GoodKid kids y) : Covers x.comp y.comp := by
  obtain ⟨v, hv, _, hrules⟩ := C14_computed_times_partial avail root hs
  rw [validateDoc_eq] at hv
  injection hv with hv
  subst hv
  obtain ⟨hbr, her⟩ := hrules anc x kids h hroot
  obtain ⟨ys, hys, hbad⟩ := hy
  constructor
  · by_cases hb : (eff x.att.beg).isSome
    · rw [hbr.1 (.inl hb)]
      exact kid_b_ge hs h hys
    · have hn : eff x.att.beg = none := by simpa using hb
      exact (hbr.2 ⟨hn, y, ys, hys, hbad⟩).2 y ⟨ys, hys, hbad⟩
  · intro ex hex
    by_cases ho : ownEnds avail (absBegin anc) x = []
    · obtain ⟨h1, h2⟩ := her.2 ⟨ho, y, ys, hys, hbad⟩
      cases hye : y.comp.e with
      | none => rw [h1.mpr ⟨y, ⟨ys, hys, hbad⟩, hye⟩] at hex; simp at hex
      | some ey => exact ⟨ey, rfl, (h2 ex hex).2 y ey ⟨ys, hys, hbad⟩ hye⟩
    · have hr := goodKid_reach h hys
      have hend := her.1 (.inl ho)
      rw [hex] at hend
      have hb := ctxAt_bound (avail := avail) (anc ++ [x]) (sane_kinds hs h)
      cases hc : (ctxAt avail (0, none) (anc ++ [x])).2 with
      | none => rw [hc] at hb; simp only [Earliest] at hb hend; rw [hb] at hend; simp at hend
      | some m =>
        rw [hc] at hb
        obtain ⟨e, he1, he2⟩ := bounded_by_path hs hr (by simp) hc
        have := hb.2 ex hend.1
        exact ⟨e, he1, by omega⟩

/-- C17.  In a validated document whose body is not badly timed, the body's interval contains the
interval of every element that is neither excluded as badly timed nor inside one that is; and the
body is open ended exactly when it specifies no end or duration and either has no counted content or
contains a counted element that is open ended. -/
theorem C17_document_covers_content (avail : Int) (root : Node Att) (hs : Sane root)
    (hgood : ∀ a kids, root = .elem a kids → badly a = false) :
    ∃ x0 kids0, validateDoc avail root = .ok (.elem x0 kids0) ∧
      (∀ anc x kids, Reach (.elem x0 kids0) anc (.elem x kids) → Counted anc x → Covers x0.comp x.comp) ∧
      (x0.comp.e = none ↔ ownEnds avail 0 x0 = [] ∧ ((∀ y, ¬ GoodKid kids0 y) ∨
        ∃ anc x kids, Reach (.elem x0 kids0) anc (.elem x kids) ∧ anc ≠ [] ∧ Counted anc x ∧ x.comp.e = none)) := by
  obtain ⟨a, ks, hroot, hbody⟩ := hs.body
  have hv := validateDoc_eq avail root
  have hx : ∃ x0 kids0, times avail 0 none root = .elem x0 kids0 ∧ x0.att = a := by
    rw [hroot]; exact ⟨_, _, rfl, rfl⟩
  obtain ⟨x0, kids0, hx, hatt⟩ := hx
  have hb0 : badly x0.att = false := by rw [hatt]; exact hgood a ks hroot
  have hcov : ∀ anc n, Reach (.elem x0 kids0) anc n → ∀ x kids, n = .elem x kids → Counted anc x →
      Covers x0.comp x.comp := by
    intro anc n hr
    induction hr with
    | here =>
      intro x kids hn _
      injection hn with hn _
      subst hn
      exact ⟨Int.le_refl _, fun ex he => ⟨ex, he, Int.le_refl _⟩⟩
    | @step anc z zs k hr hk ih =>
      intro x kids hn hc
      subst hn
      have hcz : Counted anc z := by
        intro y hy
        apply hc
        cases anc with
        | nil => simp at hy
        | cons w ws =>
          simp only [List.cons_append, List.tail_cons] at hy ⊢
          exact List.mem_append_left _ hy
      have hxb : badly x.att = false := by
        apply hc
        cases anc with
        | nil => simp
        | cons w ws => simp
      refine (ih z zs rfl hcz).trans ?_
      rw [← hx] at hr
      refine covers_kid hs hr ?_ ⟨kids, hk, hxb⟩
      intro hnil
      subst hnil
      rw [hx] at hr
      rcases reach_cons hr with ⟨_, h2⟩ | ⟨_, _, _, h1, _⟩
      · injection h2 with h2 _; rw [h2]; exact hb0
      · simp at h1
  refine ⟨x0, kids0, by rw [hv, hx], fun anc x kids hr hc => hcov anc _ hr x kids rfl hc, ?_⟩
  obtain ⟨v, hv', _, hrules⟩ := C14_computed_times_partial avail root hs
  rw [hv, hx] at hv'
  injection hv' with hv'
  subst hv'
  obtain ⟨_, her⟩ := hrules [] x0 kids0 .here (fun _ => hb0)
  have e0 : absBegin ([] : List Lab) = 0 := rfl
  unfold EndRule at her
  rw [e0] at her
  constructor
  · intro hn
    by_cases ho : ownEnds avail 0 x0 = []
    · refine ⟨ho, ?_⟩
      by_cases hk : ∃ y, GoodKid kids0 y
      · right
        obtain ⟨y, ⟨ys, hys, hyb⟩, hye⟩ := (her.2 ⟨ho, hk⟩).1.mp hn
        exact ⟨[] ++ [x0], y, ys, .step .here hys, by simp, by simpa [Counted] using hyb, hye⟩
      · left; intro y hy; exact hk ⟨y, hy⟩
    · exfalso
      have := her.1 (.inl ho)
      rw [hn] at this
      simp only [Earliest, List.nil_append, pathEnds, List.append_nil] at this
      exact ho this
  · rintro ⟨ho, hk | ⟨anc, x, kids, hr, _, hc, he⟩⟩
    · have := her.1 (.inr hk)
      simp only [List.nil_append, pathEnds, List.append_nil, ho] at this
      cases hxe : x0.comp.e with
      | none => rfl
      | some m => rw [hxe] at this; simp [Earliest] at this
    · cases hxe : x0.comp.e with
      | none => rfl
      | some m =>
        obtain ⟨e, he', _⟩ := (hcov anc _ hr x kids rfl hc).2 m hxe
        rw [he] at he'; simp at he'

example : Sane exDoc ∧ (∀ a kids, exDoc = .elem a kids → badly a = false) := by
  refine ⟨exDoc_sane, ?_⟩
  intro a kids h
  simp only [exDoc, Node.elem.injEq] at h
  rw [← h.1]; rfl

/-! ### C18 -/

/-- Drop the children that are excluded as badly timed. -/
def dropBadly (kids : List (Node Att)) : List (Node Att) :=
  kids.filter (fun k => match k with
    | .elem a _ => !badly a
    | _ => true)

theorem timedKids_drop (avail sync : Int) (bound : Option Int) (kids : List (Node Att)) :
    timedKids (timesL avail sync bound (dropBadly kids)) = timedKids (timesL avail sync bound kids) := by
  induction kids with
  | nil => rfl
  | cons k ks ih =>
    unfold dropBadly at *
    cases k with
    | text s => simp [timesL, times, timedKids, ih]
    | br => simp [timesL, times, timedKids, ih]
    | elem a xs =>
      cases hb : badly a <;> simp [hb, timesL, times, timedKids, ih]

/-- The effect of exclusion: a container's computed times are what they would be without its badly
timed children. -/
theorem C18_excluded_children_have_no_effect (c : Ctx) (a : Att) (kids : List (Node Att)) :
    ∃ x ks ks', validate c (.elem a kids) = .ok (c, .elem x ks) ∧
      validate c (.elem a (dropBadly kids)) = .ok (c, .elem x ks') := by
  refine ⟨_, _, timesL c.avail (c.sync + (eff a.beg).getD 0)
    (below (ownEnd c.avail c.sync c.ends.head? a) c.ends.head?) (dropBadly kids), validate_eq _ c, ?_⟩
  rw [validate_eq]
  simp only [times, timedKids_drop]

/-- C18 for clock times below 100 hours as the toolkit writes them: an element with such a begin and
end is excluded exactly when its end is not after its begin.  Missing: other spellings; the code
compares the texts, which is wrong for timecounts (`C18_false_timecounts`), from 100 hours on
(`C18_false_hours`) and for fractions of different length (`C18_false_fractions`). -/
theorem C18_badly_timed_clock_partial (a : Att) (t u : Int) (ht : 0 ≤ t) (hu : 0 ≤ u)
    (ht' : t < 100 * 3600000000) (hu' : u < 100 * 3600000000)
    (hb : a.beg = some ⟨Verif.Time.writeFull t, Verif.Time.toMs t⟩)
    (he : a.fin = some ⟨Verif.Time.writeFull u, Verif.Time.toMs u⟩) :
    badly a = true ↔ Verif.Time.toMs u ≤ Verif.Time.toMs t := by
  unfold badly
  rw [hb, he]
  simp only [Bool.not_eq_true', decide_eq_false_iff_not]
  rw [(Verif.Time.C22_text_order_is_time_order t u ht hu ht' hu').1]
  unfold Verif.Time.toMs
  omega

example : badly { kind := .p, beg := some ⟨Verif.Time.writeFull 5000000, 5000000⟩,
                  fin := some ⟨Verif.Time.writeFull 4000000, 4000000⟩ } = true := by decide

/-- Timecounts: 9s to 10s is excluded, 10s to 9s is not. -/
theorem C18_false_timecounts : badly { kind := .p, beg := sec 9, fin := sec 10 } = true ∧
    badly { kind := .p, beg := sec 10, fin := sec 9 } = false := by decide

/-- From 99 hours to 100 hours is excluded. -/
theorem C18_false_hours : badly { kind := .p, beg := some ⟨"99:00:00".toList, 99 * 3600000000⟩,
                                  fin := some ⟨"100:00:00".toList, 100 * 3600000000⟩ } = true := by decide

/-- From 1.5 s to 1.50 s is not excluded although the interval is empty. -/
theorem C18_false_fractions : badly { kind := .p, beg := some ⟨"00:00:01.5".toList, 1500000⟩,
                                      fin := some ⟨"00:00:01.50".toList, 1500000⟩ } = false := by decide

/-- The consequence for a document: content at 9s–10s next to content at 1s–5s does not count, and
the document is taken to end at 5 s. -/
theorem C18_false_document_interval : ∃ root, Sane root ∧
    (validateDoc 0 root).map comps =
      .ok [⟨1000000, some 5000000⟩, ⟨1000000, some 5000000⟩, ⟨9000000, some 10000000⟩] :=
  ⟨.elem { kind := .body } [.elem { kind := .div, beg := sec 1, fin := sec 5 } [],
      .elem { kind := .div, beg := sec 9, fin := sec 10 } []],
    sane_of rfl (by decide) (by decide), by decide +kernel⟩

end Verif.Doc
