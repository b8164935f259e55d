import Verif.Time.Lemmas
import Verif.Fs.Model

/-! Helper lemmas for the filesystem carriage. -/
namespace Verif.Fs
open Verif.Time

/-! ### Splitting -/

theorem splitOn_none {c : Char} {l : Text} (h : c ∉ l) : splitOn c l = [l] := by
  induction l with
  | nil => rfl
  | cons x xs ih =>
    have hx : x ≠ c := fun e => h (by simp [e])
    rw [splitOn, if_neg hx, ih (fun hm => h (List.mem_cons_of_mem _ hm))]

theorem splitOn_sep {c : Char} {a b : Text} (h : c ∉ a) :
    splitOn c (a ++ c :: b) = a :: splitOn c b := by
  induction a with
  | nil => simp [splitOn]
  | cons x xs ih =>
    have hx : x ≠ c := fun e => h (by simp [e])
    rw [List.cons_append, splitOn, if_neg hx, ih (fun hm => h (List.mem_cons_of_mem _ hm))]

theorem isDig_ne {c d : Char} (h : isDig d = false) {l : Text} (hl : l.all isDig = true) (e : c = d) : c ∉ l := by
  intro hm
  have := List.all_eq_true.mp hl c hm
  rw [e, h] at this; cases this

/-- Characters of a formatted number: digits and a minus sign. -/
theorem fmtInt_notMem (w : Nat) (n : Int) {c : Char} (hc : isDig c = false) (h2 : c ≠ '-') :
    c ∉ fmtInt w n := by
  unfold fmtInt
  split
  · rw [List.mem_cons]
    rintro (h | h)
    · exact h2 h
    · exact isDig_ne hc (pad_props _ _).2.1 rfl h
  · exact isDig_ne hc (pad_props _ _).2.1 rfl

theorem readInt_fmtInt (w : Nat) (n : Int) : readInt (fmtInt w n) = some n := by
  unfold fmtInt
  split
  · rename_i h
    obtain ⟨h1, h2, h3⟩ := pad_props (w - 1) n.natAbs
    rw [readInt, if_pos rfl, if_pos ⟨h3, h2⟩, h1]
    congr 1; omega
  · rename_i h
    obtain ⟨h1, h2, h3⟩ := pad_props w n.natAbs
    cases hp : pad w n.natAbs with
    | nil => exact absurd hp h3
    | cons c cs =>
      rw [hp] at h1 h2
      have hd : isDig c = true := by simp [List.all_cons] at h2; exact h2.1
      have e1 : c ≠ '-' := by intro e; rw [e] at hd; exact absurd hd (by decide)
      have e2 : c ≠ '+' := by intro e; rw [e] at hd; exact absurd hd (by decide)
      rw [readInt, if_neg e1, if_neg e2, if_pos h2, h1]
      congr 1; omega

theorem members_sum (t : Int) :
    (members t).1 * 3600000000 + (members t).2.1 * 60000000 + (members t).2.2.1 * 1000000
      + (members t).2.2.2 * 1000 = t / 1000 * 1000 := by
  simp only [members]; omega

theorem readTime_fmtTime (t : Int) : readTime (fmtTime t) = some (t / 1000 * 1000) := by
  have hcol : isDig ':' = false := by decide
  have hdot : isDig '.' = false := by decide
  unfold readTime fmtTime
  rw [splitOn_sep (fmtInt_notMem _ _ hcol (by decide)),
    splitOn_sep (fmtInt_notMem _ _ hcol (by decide)), splitOn_none]
  · simp only
    rw [splitOn_sep (fmtInt_notMem _ _ hdot (by decide)),
      splitOn_none (fmtInt_notMem _ _ hdot (by decide))]
    simp only [readInt_fmtInt, Option.bind_eq_bind, Option.bind_some, members_sum]
  · rw [List.mem_append, List.mem_cons]
    rintro (h | h | h)
    · exact fmtInt_notMem _ _ hcol (by decide) h
    · exact absurd h (by decide)
    · exact fmtInt_notMem _ _ hcol (by decide) h

/-- No comma, blank or line end in a manifest time. -/
theorem fmtTime_notMem (t : Int) {c : Char} (hc : isDig c = false) (h1 : c ≠ '-') (h2 : c ≠ ':') (h3 : c ≠ '.') :
    c ∉ fmtTime t := by
  unfold fmtTime
  simp only [List.mem_append, List.mem_cons, not_or]
  exact ⟨fmtInt_notMem _ _ hc h1, h2, fmtInt_notMem _ _ hc h1, h2, fmtInt_notMem _ _ hc h1, h3,
    fmtInt_notMem _ _ hc h1⟩

/-! ### Lines -/

theorem readLines_line {l m : Text} (h : '\n' ∉ l) : readLines (l ++ '\n' :: m) = (l ++ ['\n']) :: readLines m := by
  induction l with
  | nil => simp [readLines]
  | cons x xs ih =>
    have hx : x ≠ '\n' := fun e => h (by simp [e])
    rw [List.cons_append, readLines, if_neg hx, ih (fun hm => h (List.mem_cons_of_mem _ hm))]
    rfl

theorem rstrip_keep {l : Text} {c : Char} (h : isBlank c = false) : rstrip (l ++ [c]) = l ++ [c] := by
  unfold rstrip
  simp [h]

theorem rstrip_line {l : Text} {c : Char} (h : isBlank c = false) : rstrip (l ++ [c] ++ ['\n']) = l ++ [c] := by
  have h2 : isBlank '\n' = true := by decide
  unfold rstrip
  simp only [List.reverse_append, List.reverse_cons, List.reverse_nil, List.nil_append, List.cons_append,
    List.append_assoc, List.dropWhile_cons, h2, if_true, h, Bool.false_eq_true, if_false]
  simp

/-! ### Executing -/

theorem exec_append (d : Disk) (a b : List Op) : exec d (a ++ b) = exec (exec d a) b := by
  simp [exec, List.foldl_append]

theorem exec_line (d : Disk) (l : Text) : exec d (l.map .line) = { d with manifest := d.manifest ++ l } := by
  induction l generalizing d with
  | nil => simp [exec]
  | cons c cs ih =>
    show exec (step d (.line c)) (cs.map .line) = _
    rw [ih]; simp [step]

theorem exec_put (d : Disk) (f : Text) (l x : Text) (h : d.files f = some x) :
    exec d (l.map (.put f)) = { d with files := setFile d.files f (some (x ++ l)) } := by
  induction l generalizing d x with
  | nil =>
    simp only [List.map_nil, exec, List.foldl_nil, List.append_nil]
    have : setFile d.files f (some x) = d.files := by
      funext g; unfold setFile; split
      · rename_i e; rw [e, h]
      · rfl
    rw [this]
  | cons c cs ih =>
    show exec (step d (.put f c)) (cs.map (.put f)) = _
    rw [ih _ (x ++ [c]) (by simp [step, setFile, h])]
    simp only [step, Disk.mk.injEq, and_true]
    funext g; unfold setFile
    by_cases hg : g = f <;> simp [hg]

theorem exec_file (d : Disk) (f l : Text) :
    exec d (.create f :: l.map (.put f)) = { d with files := setFile d.files f (some l) } := by
  show exec (step d (.create f)) (l.map (.put f)) = _
  rw [exec_put _ f l [] (by simp [step, setFile])]
  simp only [step, Disk.mk.injEq, and_true, List.nil_append]
  funext g; unfold setFile; split <;> rfl

/-- The manifest line of one write. -/
def lineText (e : Emission) : Text :=
  match e.time with
  | none => []
  | some t => lineOf t e.name

theorem opsOf_eq (e : Emission) :
    opsOf e = (.create e.name :: e.data.map (.put e.name)) ++ (lineText e).map .line := by
  unfold opsOf lineText
  cases e.time <;> simp

theorem exec_opsOf (d : Disk) (e : Emission) :
    exec d (opsOf e) = ⟨setFile d.files e.name (some e.data), d.manifest ++ lineText e⟩ := by
  rw [opsOf_eq, exec_append, exec_file, exec_line]

/-! ### What a name must look like -/

/-- Names that survive the manifest: no comma, no line end, no blank at the end. -/
structure Good (f : Text) : Prop where
  comma : ',' ∉ f
  newline : '\n' ∉ f
  tail : ∃ l c, f = l ++ [c] ∧ isBlank c = false

theorem readLine_lineOf (fs : Text → Option Text) (t : Int) {f : Text} (h : Good f) {x : Text} (hx : fs f = some x) :
    readLine fs (lineOf t f) = some (if x = [] then none else some (t / 1000 * 1000, x)) := by
  obtain ⟨l, c, hf, hc⟩ := h.tail
  have hr : rstrip (lineOf t f) = fmtTime t ++ ',' :: f := by
    have := rstrip_line (l := fmtTime t ++ ',' :: l) hc
    unfold lineOf
    rw [hf]
    simpa using this
  unfold readLine
  rw [hr, splitOn_sep (fmtTime_notMem t (by decide) (by decide) (by decide) (by decide)),
    splitOn_none h.comma]
  simp only [hx, readTime_fmtTime, Option.map_some]
  split <;> rfl

/-- What reading the line of a write gives when its file is there. -/
def result (e : Emission) : List (Int × Text) :=
  match e.time with
  | none => []
  | some t => if e.data = [] then [] else [(t / 1000 * 1000, e.data)]

theorem readLines_lineText {e : Emission} (h : Good e.name) (m : Text) :
    readLines (lineText e ++ m) = (if e.time.isSome then [lineText e] else []) ++ readLines m := by
  unfold lineText
  cases e.time with
  | none => simp
  | some t =>
    simp only [Option.isSome_some, if_true]
    have hn : '\n' ∉ fmtTime t ++ ',' :: e.name := by
      rw [List.mem_append, List.mem_cons]
      rintro (h' | h' | h')
      · exact fmtTime_notMem t (by decide) (by decide) (by decide) (by decide) h'
      · exact absurd h' (by decide)
      · exact h.newline h'
    have := readLines_line (m := m) hn
    unfold lineOf
    simpa using this

theorem readAll_append (fs : Text → Option Text) (a b : List Text) :
    readAll fs (a ++ b) = (do let x ← readAll fs a; let y ← readAll fs b; some (x ++ y)) := by
  induction a with
  | nil => simp [readAll]
  | cons l ls ih =>
    rw [List.cons_append, readAll, readAll, ih]
    cases readLine fs l <;> simp
    cases readAll fs ls <;> simp
    cases readAll fs b <;> simp

/-- The complete lines of a list of writes. -/
def manifestOf (es : List Emission) : Text := es.flatMap lineText

theorem readAll_manifest (fs : Text → Option Text) (es : List Emission) (hg : ∀ e ∈ es, Good e.name)
    (hf : ∀ e ∈ es, fs e.name = some e.data) :
    readAll fs (readLines (manifestOf es)) = some (es.flatMap result) := by
  induction es with
  | nil => simp [manifestOf, readLines, readAll]
  | cons e es ih =>
    have ih := ih (fun x hx => hg x (List.mem_cons_of_mem _ hx)) (fun x hx => hf x (List.mem_cons_of_mem _ hx))
    have h1 : manifestOf (e :: es) = lineText e ++ manifestOf es := by simp [manifestOf]
    rw [h1, readLines_lineText (hg e List.mem_cons_self), readAll_append, ih]
    unfold lineText
    cases ht : e.time with
    | none => simp [readAll, result, ht]
    | some t =>
      simp only [Option.isSome_some, if_true, readAll,
        readLine_lineOf fs t (hg e List.mem_cons_self) (hf e List.mem_cons_self)]
      by_cases hd : e.data = [] <;> simp [hd, result, ht]

/-- All of a run's writes executed: files and manifest. -/
theorem exec_opsAll (es : List Emission) (d : Disk) (hn : (es.map (·.name)).Nodup) :
    (exec d (opsAll es)).manifest = d.manifest ++ manifestOf es ∧
    (∀ e ∈ es, (exec d (opsAll es)).files e.name = some e.data) ∧
    (∀ f, f ∉ es.map (·.name) → (exec d (opsAll es)).files f = d.files f) := by
  induction es generalizing d with
  | nil => simp [opsAll, exec, manifestOf]
  | cons e es ih =>
    rw [List.map_cons, List.nodup_cons] at hn
    have h0 : opsAll (e :: es) = opsOf e ++ opsAll es := by simp [opsAll]
    rw [h0, exec_append, exec_opsOf]
    obtain ⟨h1, h2, h3⟩ := ih ⟨setFile d.files e.name (some e.data), d.manifest ++ lineText e⟩ hn.2
    refine ⟨?_, ?_, ?_⟩
    · rw [h1]; simp [manifestOf]
    · intro x hx
      rcases List.mem_cons.mp hx with rfl | hx
      · rw [h3 _ hn.1]; simp [setFile]
      · exact h2 x hx
    · intro f hf
      rw [List.map_cons, List.mem_cons, not_or] at hf
      rw [h3 f hf.2]; simp [setFile, hf.1]

/-! ### Cutting a run short -/

theorem prefix_flatMap {α β : Type} (g : α → List β) : ∀ (l : List α) (p : List β), p <+: l.flatMap g →
    ∃ l1 l2, l = l1 ++ l2 ∧ ((p = l1.flatMap g) ∨
      ∃ e l3 q, l2 = e :: l3 ∧ q <+: g e ∧ q ≠ g e ∧ p = l1.flatMap g ++ q)
  | [], p, h => ⟨[], [], rfl, .inl (by simpa using h)⟩
  | x :: xs, p, h => by
    rw [List.flatMap_cons] at h
    rcases Classical.em (g x <+: p) with hp | hp
    · obtain ⟨r, rfl⟩ := hp
      rw [List.prefix_append_right_inj] at h
      obtain ⟨l1, l2, he, hc⟩ := prefix_flatMap g xs r h
      refine ⟨x :: l1, l2, by simp [he], ?_⟩
      rcases hc with rfl | ⟨e, l3, q, h1, h2, h3, rfl⟩
      · left; simp
      · right; exact ⟨e, l3, q, h1, h2, h3, by simp⟩
    · refine ⟨[], x :: xs, rfl, .inr ⟨x, xs, p, rfl, ?_, ?_, by simp⟩⟩
      · rcases List.prefix_or_prefix_of_prefix h (List.prefix_append (g x) (xs.flatMap g)) with h' | h'
        · exact h'
        · exact absurd h' hp
      · rintro rfl; exact hp List.prefix_rfl

/-- A write cut short: other files are untouched, and either nothing has reached the manifest or the
file is complete and part of its line has. -/
theorem exec_cut (d : Disk) (e : Emission) (q : List Op) (h : q <+: opsOf e) (hne : q ≠ opsOf e) :
    (∀ f, f ≠ e.name → (exec d q).files f = d.files f) ∧
    ((exec d q).manifest = d.manifest ∨
      ∃ m, m <+: lineText e ∧ m ≠ lineText e ∧ (exec d q).manifest = d.manifest ++ m) := by
  have hfiles : ∀ (l : List Op) (d : Disk), (∀ o ∈ l, o = .create e.name ∨ (∃ c, o = .put e.name c) ∨ ∃ c, o = .line c) →
      ∀ f, f ≠ e.name → (exec d l).files f = d.files f := by
    intro l
    induction l with
    | nil => intro d _ f _; rfl
    | cons o os ih =>
      intro d ho f hf
      show (exec (step d o) os).files f = _
      rw [ih _ (fun x hx => ho x (List.mem_cons_of_mem _ hx)) f hf]
      rcases ho o List.mem_cons_self with rfl | ⟨c, rfl⟩ | ⟨c, rfl⟩ <;> simp [step, setFile, hf]
  refine ⟨?_, ?_⟩
  · apply hfiles
    intro o ho
    have : o ∈ opsOf e := h.subset ho
    rw [opsOf_eq] at this
    simp only [List.cons_append, List.mem_cons, List.mem_append, List.mem_map] at this
    rcases this with h | ⟨c, _, rfl⟩ | ⟨c, _, rfl⟩
    · exact .inl h
    · exact .inr (.inl ⟨c, rfl⟩)
    · exact .inr (.inr ⟨c, rfl⟩)
  · rw [opsOf_eq] at h hne
    rcases List.prefix_or_prefix_of_prefix h (List.prefix_append (Op.create e.name :: e.data.map (Op.put e.name)) ((lineText e).map Op.line)) with h' | h'
    · left
      have hman : ∀ (l : List Op) (d : Disk), (∀ o ∈ l, o = .create e.name ∨ (∃ c, o = .put e.name c)) →
          (exec d l).manifest = d.manifest := by
        intro l
        induction l with
        | nil => intro d _; rfl
        | cons o os ih =>
          intro d ho
          show (exec (step d o) os).manifest = _
          rw [ih _ (fun x hx => ho x (List.mem_cons_of_mem _ hx))]
          rcases ho o List.mem_cons_self with rfl | ⟨c, rfl⟩ <;> simp [step]
      apply hman
      intro o ho
      have := h'.subset ho
      simp only [List.mem_cons, List.mem_map] at this
      rcases this with h | ⟨c, _, rfl⟩
      · exact .inl h
      · exact .inr ⟨c, rfl⟩
    · right
      obtain ⟨r, rfl⟩ := h'
      rw [List.prefix_append_right_inj] at h
      obtain ⟨m, hm, rfl⟩ := List.prefix_map_iff.mp h
      refine ⟨m, hm, ?_, ?_⟩
      · rintro rfl; exact hne rfl
      · rw [exec_append, exec_file, exec_line]

/-! ### Names -/

theorem digs_inj {a b : Nat} (h : digs a = digs b) : a = b := by
  rw [← (digs_props a).1, ← (digs_props b).1, h]

theorem docName_inj {s : Text} {a b : Nat} (h : docName s a = docName s b) : a = b := by
  unfold docName at h
  have h := List.append_cancel_left h
  rw [List.cons.injEq] at h
  exact digs_inj (List.append_cancel_right h.2)

theorem msgName_inj {s : Text} {a b : Nat} (h : msgName s a = msgName s b) : a = b := by
  unfold msgName at h
  exact digs_inj (List.append_cancel_left (List.append_cancel_right h))

theorem docName_ne_msgName (s : Text) (a b : Nat) : docName s a ≠ msgName s b := by
  intro h
  unfold docName msgName at h
  rw [List.append_assoc, List.append_assoc] at h
  have h := List.append_cancel_left h
  obtain ⟨_, h2, h3⟩ := digs_props a
  cases hd : digs a with
  | nil => exact h3 hd
  | cons c cs =>
    rw [hd] at h h2
    have e1 : "_msg_".toList = ['_', 'm', 's', 'g', '_'] := by decide
    rw [e1] at h
    have hc : c = 'm' := by
      have := congrArg (fun l => l[1]?) h
      simpa using this
    rw [hc] at h2
    simp [isDig] at h2

theorem good_name {s : Text} (h1 : ',' ∉ s) (h2 : '\n' ∉ s) (n : Nat) : Good (docName s n) ∧ Good (msgName s n) := by
  have hd : ∀ c, isDig c = false → c ∉ digs n := fun c hc => isDig_ne hc (digs_props n).2.1 rfl
  refine ⟨⟨?_, ?_, ?_⟩, ⟨?_, ?_, ?_⟩⟩
  · simp [docName, h1, hd ',' (by decide)]
  · simp [docName, h2, hd '\n' (by decide)]
  · exact ⟨s ++ '_' :: (digs n ++ ".xm".toList), 'l', by simp [docName], by decide⟩
  · simp [msgName, h1, hd ',' (by decide)]
  · simp [msgName, h2, hd '\n' (by decide)]
  · exact ⟨s ++ "_msg_".toList ++ digs n ++ ".xm".toList, 'l', by simp [msgName], by decide⟩

/-- The name of every write of a run of one sequence. -/
theorem emissions_names (s : Text) : ∀ (os : List Out) (k : Nat), (∀ o ∈ os, o.seq = s) →
    ∀ e ∈ emissions k os, (∃ o ∈ os, ∃ n, o.num = some n ∧ e.name = docName s n) ∨ ∃ j, k < j ∧ e.name = msgName s j
  | [], _, _, e, he => by simp [emissions] at he
  | o :: os, k, h, e, he => by
    have hos : ∀ o ∈ os, o.seq = s := fun x hx => h x (List.mem_cons_of_mem _ hx)
    have hs := h o List.mem_cons_self
    unfold emissions at he
    cases hn : o.num with
    | none =>
      rw [hn] at he
      rcases List.mem_cons.mp he with rfl | he
      · right; exact ⟨k + 1, by omega, by simp [hs]⟩
      · rcases emissions_names s os (k + 1) hos e he with ⟨o', ho', n, h1, h2⟩ | ⟨j, h1, h2⟩
        · left; exact ⟨o', List.mem_cons_of_mem _ ho', n, h1, h2⟩
        · right; exact ⟨j, by omega, h2⟩
    | some n =>
      rw [hn] at he
      rcases List.mem_cons.mp he with rfl | he
      · left; exact ⟨o, List.mem_cons_self, n, hn, by simp [hs]⟩
      · rcases emissions_names s os k hos e he with ⟨o', ho', n', h1, h2⟩ | ⟨j, h1, h2⟩
        · left; exact ⟨o', List.mem_cons_of_mem _ ho', n', h1, h2⟩
        · right; exact ⟨j, h1, h2⟩

theorem emissions_nodup (s : Text) : ∀ (os : List Out) (k : Nat), (∀ o ∈ os, o.seq = s) →
    (os.filterMap (·.num)).Nodup → ((emissions k os).map (·.name)).Nodup
  | [], _, _, _ => by simp [emissions]
  | o :: os, k, h, hd => by
    have hos : ∀ o ∈ os, o.seq = s := fun x hx => h x (List.mem_cons_of_mem _ hx)
    have hs := h o List.mem_cons_self
    unfold emissions
    cases hn : o.num with
    | none =>
      rw [List.filterMap_cons_none hn] at hd
      simp only [List.map_cons, List.nodup_cons, List.mem_map, not_exists, not_and]
      refine ⟨fun e he hc => ?_, emissions_nodup s os (k + 1) hos hd⟩
      rw [hs] at hc
      rcases emissions_names s os (k + 1) hos e he with ⟨o', _, n, _, h2⟩ | ⟨j, h1, h2⟩
      · exact docName_ne_msgName _ _ _ (h2.symm.trans hc)
      · have := msgName_inj (h2.symm.trans hc); omega
    | some n =>
      rw [List.filterMap_cons_some hn, List.nodup_cons] at hd
      simp only [List.map_cons, List.nodup_cons, List.mem_map, not_exists, not_and]
      refine ⟨fun e he hc => ?_, emissions_nodup s os k hos hd.2⟩
      rw [hs] at hc
      rcases emissions_names s os k hos e he with ⟨o', ho', n', h1, h2⟩ | ⟨j, h1, h2⟩
      · have := docName_inj (h2.symm.trans hc)
        exact hd.1 (List.mem_filterMap.mpr ⟨o', ho', by rw [h1, this]⟩)
      · exact docName_ne_msgName _ _ _ (hc.symm.trans h2)

theorem emissions_good {s : Text} (h1 : ',' ∉ s) (h2 : '\n' ∉ s) (os : List Out) (k : Nat) (h : ∀ o ∈ os, o.seq = s) :
    ∀ e ∈ emissions k os, Good e.name := by
  intro e he
  rcases emissions_names s os k h e he with ⟨_, _, n, _, hn⟩ | ⟨j, _, hn⟩
  · rw [hn]; exact (good_name h1 h2 n).1
  · rw [hn]; exact (good_name h1 h2 j).2

/-- The emissions of a run, apart from their names. -/
theorem emissions_map : ∀ (os : List Out) (k : Nat),
    (emissions k os).map (fun e => (e.data, e.time)) = os.map (fun o => (o.data, lineTime o))
  | [], _ => rfl
  | o :: os, k => by
    unfold emissions
    cases o.num <;> simp [emissions_map os]

/-! ### The rotating buffer -/

structure RInv (n : Nat) (s : Rot) : Prop where
  parts : s.written = s.removed ++ s.waiting ++ s.queue ++ s.ring
  size : s.ring.length = min n s.written.length

theorem RInv.step {n : Nat} (hn : 0 < n) {s : Rot} (h : RInv n s) (e : REv) : RInv n (Rot.step n s e) := by
  obtain ⟨h1, h2⟩ := h
  have hlen := congrArg List.length h1
  simp only [List.length_append] at hlen
  cases e with
  | write f =>
    simp only [Rot.step]
    cases hr : s.ring with
    | nil =>
      rw [hr] at h1 h2 hlen
      refine ⟨by simp [h1], ?_⟩
      simp only [List.length_append, List.length_cons, List.length_nil] at *
      omega
    | cons x xs =>
      rw [hr] at h1 h2 hlen
      simp only
      split
      · refine ⟨by simp [h1], ?_⟩
        simp only [List.length_append, List.length_cons, List.length_nil] at *
        omega
      · refine ⟨by simp [h1], ?_⟩
        simp only [List.length_append, List.length_cons, List.length_nil] at *
        omega
  | take =>
    simp only [Rot.step]
    split
    · rename_i hw
      rw [Bool.and_eq_true, List.isEmpty_iff] at hw
      cases hq : s.queue with
      | nil => exact ⟨h1, h2⟩
      | cons x q => exact ⟨by rw [h1, hw.2, hq]; simp, h2⟩
    · exact ⟨h1, h2⟩
  | del =>
    simp only [Rot.step]
    split
    · cases hw : s.waiting with
      | nil => exact ⟨h1, h2⟩
      | cons x w => exact ⟨by rw [h1, hw]; simp, h2⟩
    · exact ⟨h1, h2⟩
  | die => exact ⟨h1, h2⟩

theorem RInv.run {n : Nat} (hn : 0 < n) (evs : List REv) : RInv n (Rot.run n evs) := by
  unfold Rot.run
  have : ∀ (evs : List REv) (s : Rot), RInv n s → RInv n (evs.foldl (Rot.step n) s) := by
    intro evs
    induction evs with
    | nil => exact fun s h => h
    | cons e es ih => exact fun s h => ih _ (h.step hn e)
  exact this evs {} ⟨rfl, by simp⟩

/-- The writes in a schedule. -/
def writes (evs : List REv) : List Text := evs.filterMap (fun | .write f => some f | _ => none)

theorem run_snoc (n : Nat) (evs : List REv) (e : REv) : Rot.run n (evs ++ [e]) = Rot.step n (Rot.run n evs) e := by
  simp [Rot.run]

theorem step_written (n : Nat) (s : Rot) (e : REv) : (Rot.step n s e).written = s.written ++ writes [e] := by
  cases e <;> simp only [Rot.step, writes]
  · cases s.ring <;> simp only <;> (try split) <;> simp
  · split <;> (try cases s.queue) <;> simp
  · split <;> (try cases s.waiting) <;> simp
  · simp

theorem run_written (n : Nat) : ∀ (evs : List REv) (s : Rot), (evs.foldl (Rot.step n) s).written = s.written ++ writes evs
  | [], s => by simp [writes]
  | e :: es, s => by
    rw [List.foldl_cons, run_written n es, step_written]
    simp [writes, List.filterMap_cons]
    cases e <;> simp

theorem run_disk {n : Nat} (hn : 0 < n) (evs : List REv) (hd : (writes evs).Nodup) :
    (Rot.run n evs).disk = (Rot.run n evs).waiting ++ (Rot.run n evs).queue ++ (Rot.run n evs).ring := by
  have key : ∀ (rest done : List REv), (writes (done ++ rest)).Nodup →
      (Rot.run n done).disk = (Rot.run n done).waiting ++ (Rot.run n done).queue ++ (Rot.run n done).ring →
      (Rot.run n (done ++ rest)).disk = (Rot.run n (done ++ rest)).waiting ++ (Rot.run n (done ++ rest)).queue
        ++ (Rot.run n (done ++ rest)).ring := by
    intro rest
    induction rest with
    | nil => intro done _ h; simpa using h
    | cons e es ih =>
      intro done hnd h
      have e1 : done ++ e :: es = (done ++ [e]) ++ es := by simp
      rw [e1] at hnd ⊢
      refine ih (done ++ [e]) hnd ?_
      have hw : (Rot.run n done).written = writes done := by
        have := run_written n done {}; simpa [Rot.run] using this
      have hnd' : (writes done ++ writes [e]).Nodup := by
        have : writes (done ++ [e] ++ es) = writes done ++ writes [e] ++ writes es := by
          unfold writes; rw [List.filterMap_append, List.filterMap_append]
        rw [this] at hnd
        exact (List.nodup_append.mp hnd).1
      have hinv := RInv.run hn done
      rw [run_snoc]
      generalize hs : Rot.run n done = s at *
      rw [← hw] at hnd'
      have hsub : ∀ f, f ∈ s.disk → f ∈ s.written := by
        intro f hf
        rw [h] at hf; rw [hinv.parts]
        simp only [List.mem_append] at hf ⊢
        rcases hf with (hf | hf) | hf
        · exact .inl (.inl (.inr hf))
        · exact .inl (.inr hf)
        · exact .inr hf
      cases e with
      | write f =>
        have hf : f ∉ s.disk := by
          intro hf
          have := List.nodup_append.mp hnd'
          exact this.2.2 f (hsub f hf) f (by simp [writes]) rfl
        simp only [Rot.step, if_neg hf]
        cases hr : s.ring with
        | nil => simp [h, hr]
        | cons x xs =>
          simp only
          split <;> simp [h, hr]
      | take =>
        simp only [Rot.step]
        split
        · rename_i hw'
          rw [Bool.and_eq_true, List.isEmpty_iff] at hw'
          cases hq : s.queue with
          | nil => simpa [hq] using h
          | cons x q => simp [h, hq, hw'.2]
        · exact h
      | del =>
        simp only [Rot.step]
        split
        · cases hwt : s.waiting with
          | nil => simpa [hwt] using h
          | cons x w =>
            have hnd2 : s.written.Nodup := (List.nodup_append.mp hnd').1
            rw [hinv.parts, hwt] at hnd2
            have hx : x ∉ w ++ s.queue ++ s.ring := by
              have : (s.removed ++ (x :: (w ++ s.queue ++ s.ring))).Nodup := by simpa using hnd2
              exact (List.nodup_cons.mp (List.nodup_append.mp this).2.1).1
            simp only [h, hwt, List.cons_append, List.filter_cons]
            simp only [ne_eq, not_true_eq_false, decide_false, Bool.false_eq_true, if_false]
            rw [List.filter_eq_self]
            intro y hy
            simp only [decide_eq_true_eq]
            rintro rfl; exact hx hy
        · exact h
      | die => exact h
  have := key evs [] (by simpa using hd) rfl
  simpa using this

end Verif.Fs
