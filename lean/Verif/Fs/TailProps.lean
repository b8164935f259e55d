import Verif.Fs.Tail

/-!
# C93: following the manifest while it is written
-/
namespace Verif.Fs

/-- The reader never looks at the manifest while its last line is incomplete: whenever a `readline` occurs, the manifest ends with a line end
or is empty.  (A short line that is written in one go by the close of the file.) -/
def WholeLines (files : Text → Option Text) (evs : List TEv) : Prop :=
  ∀ a b, evs = a ++ .readline :: b →
    completePart (exec ⟨files, []⟩ (opsIn a)).manifest = (exec ⟨files, []⟩ (opsIn a)).manifest

/-- `n` further rounds of the reader: read a line, hand its document on. -/
def rounds : Nat → List TEv
  | 0 => []
  | n + 1 => .readline :: .fetch :: rounds n

theorem tail_inv (s : Text) (os : List Out) (files : Text → Option Text) (h : OneSequence s os) :
    ∀ evs : List TEv, opsIn evs <+: opsAll (emissions 0 os) → WholeLines files evs →
      TInv (emissions 0 os) (Tail.run files evs) := by
  have hg := emissions_good h.comma h.newline os 0 h.seq
  apply snoc_induction
  · intro _ _
    exact .idle [] _ rfl rfl rfl rfl (by simp [manifestOf]) rfl
  · intro evs e ih hops hw
    have happ : opsIn (evs ++ [e]) = opsIn evs ++ opsIn [e] := by simp [opsIn]
    have hops' : opsIn evs <+: opsAll (emissions 0 os) := by
      rw [happ] at hops
      exact (List.prefix_append _ _).trans hops
    have hw' : WholeLines files evs := by
      intro a b hab
      exact hw a (b ++ [e]) (by rw [hab]; simp)
    have hi := ih hops' hw'
    obtain ⟨l1, l2, m, h1, h2, h3, h4, _⟩ := cut_disk s os files h _ hops'
    have hd := run_disk_eq files evs
    rw [Tail.run_snoc]
    cases e with
    | op o => exact hi.op o
    | readline =>
      have hwm := hw evs [] rfl
      rw [h3] at hwm
      have hm := completePart_eq_nil h2 hwm
      exact hi.readline hg h1 (by rw [hd, h3, hm, List.append_nil])
    | fetch => exact hi.fetch hg h1 (by rw [hd, h3]) h2 (by rw [hd]; exact h4)

/-- **Nothing wrong, twice or out of order, at any moment.**  However the reader's steps are interleaved with the producer's, up to any moment: no exception
has ended the reading, and what has been handed on is exactly what belongs to the first few documents given to the producer. -/
theorem C93_safe_partial (s : Text) (os : List Out) (files : Text → Option Text) (h : OneSequence s os)
    (evs : List TEv) (hops : opsIn evs <+: opsAll (emissions 0 os)) (hw : WholeLines files evs) :
    (Tail.run files evs).alive = true ∧ ∃ os1 os2, os = os1 ++ os2 ∧ (Tail.run files evs).out = os1.flatMap handed :=
  (tail_inv s os files h evs hops hw).handed

/-- What is still to be handed on. -/
def todo (s : Tail) : Nat := (readLines (s.disk.manifest.drop s.pos)).length + if s.hand.isSome then 1 else 0

theorem readLines_drop : ∀ (m l : Text) (ls : List Text), readLines m = l :: ls → readLines (m.drop l.length) = ls := by
  intro m
  induction m with
  | nil => intro l ls h; simp [readLines] at h
  | cons c cs ih =>
    intro l ls h
    unfold readLines at h
    by_cases hc : c = '\n'
    · rw [if_pos hc] at h
      simp only [List.cons.injEq] at h
      rw [← h.1, ← h.2]; rfl
    · rw [if_neg hc] at h
      cases hr : readLines cs with
      | nil =>
        rw [hr] at h
        simp only [List.cons.injEq] at h
        have hcs : cs = [] := by
          cases cs with
          | nil => rfl
          | cons d ds =>
            exfalso
            unfold readLines at hr
            split at hr
            · simp at hr
            · split at hr <;> simp at hr
        rw [← h.1, ← h.2, hcs]; rfl
      | cons l' ls' =>
        rw [hr] at h
        simp only [List.cons.injEq] at h
        rw [← h.1, ← h.2]
        simpa using ih l' ls' hr

theorem readLines_nil {m : Text} (h : readLines m = []) : m = [] := by
  cases m with
  | nil => rfl
  | cons d ds =>
    exfalso
    unfold readLines at h
    split at h
    · simp at h
    · split at h <;> simp at h

theorem todo_round (s : Tail) (ha : s.alive = true) : todo ((s.step .readline).step .fetch) = todo s - 1 := by
  have hd : ((s.step .readline).step .fetch).disk = s.disk := by
    rw [step_reader_disk _ _ (by simp), step_reader_disk _ _ (by simp)]
  have fetch_some : ∀ (s' : Tail) (l : Text), s'.alive = true → s'.hand = some l →
      (s'.step .fetch).hand = none ∧ (s'.step .fetch).pos = s'.pos := by
    intro s' l h1 h2
    unfold Tail.step
    rw [h1, h2]
    simp only
    split <;> exact ⟨rfl, rfl⟩
  unfold todo
  rw [hd]
  cases hh : s.hand with
  | some l =>
    have hst : s.step .readline = s := by simp [Tail.step, ha, hh]
    rw [hst]
    obtain ⟨f1, f2⟩ := fetch_some s l ha hh
    simp [f1, f2]
  | none =>
    cases hr : readLines (s.disk.manifest.drop s.pos) with
    | nil =>
      have hst : s.step .readline = s := by simp [Tail.step, ha, hh, hr]
      have hst2 : s.step .fetch = s := by simp [Tail.step, ha, hh]
      rw [hst, hst2, hr, hh]
      rfl
    | cons l ls =>
      have hst : s.step .readline = { s with pos := s.pos + l.length, hand := some l } := by
        simp [Tail.step, ha, hh, hr]
      rw [hst]
      obtain ⟨f1, f2⟩ := fetch_some { s with pos := s.pos + l.length, hand := some l } l ha rfl
      rw [f1, f2, ← List.drop_drop, readLines_drop _ _ _ hr]
      simp

theorem opsIn_rounds : ∀ n, opsIn (rounds n) = []
  | 0 => rfl
  | n + 1 => by
    show opsIn (rounds n) = []
    exact opsIn_rounds n

theorem rounds_snoc : ∀ n, rounds (n + 1) = rounds n ++ [.readline, .fetch]
  | 0 => rfl
  | n + 1 => by
    show TEv.readline :: .fetch :: rounds (n + 1) = TEv.readline :: .fetch :: rounds n ++ [.readline, .fetch]
    rw [rounds_snoc n]
    rfl

theorem wholeLines_rounds (files : Text → Option Text) (evs : List TEv) (hw : WholeLines files evs)
    (hnow : completePart (exec ⟨files, []⟩ (opsIn evs)).manifest = (exec ⟨files, []⟩ (opsIn evs)).manifest) (n : Nat) :
    WholeLines files (evs ++ rounds n) := by
  intro a b hab
  rcases split_cases hab with ⟨x, h1, h2⟩ | ⟨x, h1, h2⟩
  · have hx : opsIn x = [] := by
      have := opsIn_rounds n
      rw [h2] at this
      unfold opsIn at this ⊢
      rw [List.filterMap_append, List.append_eq_nil_iff] at this
      exact this.1
    have : opsIn a = opsIn evs := by
      rw [h1]
      unfold opsIn at hx ⊢
      rw [List.filterMap_append, hx, List.append_nil]
    rw [this]
    exact hnow
  · cases x with
    | nil =>
      rw [List.append_nil] at h1
      rw [← h1]; exact hnow
    | cons c cs =>
      simp only [List.cons_append, List.cons.injEq] at h2
      exact hw a cs (by rw [h1, h2.1])

/-- **The reader catches up.**  At any moment at which the manifest ends with a whole line: after enough rounds without a step of the producer, and ever after, the
reader has handed on exactly what a reader started now, which reads the manifest from the beginning to the end, would hand on. -/
theorem C93_catches_up_partial (s : Text) (os : List Out) (files : Text → Option Text) (h : OneSequence s os)
    (evs : List TEv) (hops : opsIn evs <+: opsAll (emissions 0 os)) (hw : WholeLines files evs)
    (hnow : completePart (exec ⟨files, []⟩ (opsIn evs)).manifest = (exec ⟨files, []⟩ (opsIn evs)).manifest) :
    ∃ n, ∀ k ≥ n, (Tail.run files (evs ++ rounds k)).alive = true ∧
      (exec ⟨files, []⟩ (opsIn evs)).read = some (Tail.run files (evs ++ rounds k)).out := by
  have hinv : ∀ k, TInv (emissions 0 os) (Tail.run files (evs ++ rounds k)) := by
    intro k
    refine tail_inv s os files h _ ?_ (wholeLines_rounds files evs hw hnow k)
    have : opsIn (evs ++ rounds k) = opsIn evs := by
      have hr := opsIn_rounds k
      unfold opsIn at hr ⊢
      rw [List.filterMap_append, hr, List.append_nil]
    rw [this]; exact hops
  have halive : ∀ k, (Tail.run files (evs ++ rounds k)).alive = true := fun k => (hinv k).handed.1
  have htodo : ∀ k, todo (Tail.run files (evs ++ rounds k)) = todo (Tail.run files evs) - k := by
    intro k
    induction k with
    | zero => simp [rounds]
    | succ k ih =>
      have : evs ++ rounds (k + 1) = ((evs ++ rounds k) ++ [.readline]) ++ [.fetch] := by rw [rounds_snoc]; simp
      rw [this, Tail.run_snoc, Tail.run_snoc, todo_round _ (halive k), ih]
      omega
  refine ⟨todo (Tail.run files evs), fun k hk => ⟨halive k, ?_⟩⟩
  have h0 : todo (Tail.run files (evs ++ rounds k)) = 0 := by rw [htodo]; omega
  have hops' : opsIn (evs ++ rounds k) = opsIn evs := by
    have hr := opsIn_rounds k
    unfold opsIn at hr ⊢
    rw [List.filterMap_append, hr, List.append_nil]
  have hd := run_disk_eq files (evs ++ rounds k)
  rw [hops'] at hd
  obtain ⟨l1, l2, m, h1, h2, h3, h4, _⟩ := cut_disk s os files h _ hops
  have hm : m = [] := completePart_eq_nil h2 (by rw [← h3]; exact hnow)
  rw [hm, List.append_nil] at h3
  have hg := emissions_good h.comma h.newline os 0 h.seq
  have hread : (exec ⟨files, []⟩ (opsIn evs)).read = some (l1.flatMap result) := by
    unfold Disk.read
    rw [h3]
    exact readAll_manifest _ _ (fun e he => hg e (by rw [h1]; simp [he])) h4
  rw [hread]
  unfold todo at h0
  cases hinv k with
  | busy r l e t hes ht hh ha hp hm' ho => rw [hh] at h0; simp at h0
  | idle r l hes hh ha hp hm' ho =>
    rw [hh] at h0
    have hnil := readLines_nil (List.length_eq_zero_iff.mp (by simpa using h0))
    rw [hd, h3] at hm' hnil
    have heq : manifestOf r = manifestOf l1 := by
      refine hm'.eq_of_length_le ?_
      rw [hp] at hnil
      have := List.drop_eq_nil_iff.mp hnil
      omega
    rw [ho]
    congr 1
    rcases split_cases (hes.symm.trans h1) with ⟨x, e1, _⟩ | ⟨x, e1, _⟩
    · rw [e1, manifestOf_append] at heq
      have hx : manifestOf x = [] := by
        have := congrArg List.length heq
        rw [List.length_append] at this
        exact List.length_eq_zero_iff.mp (by omega)
      rw [e1, List.flatMap_append, manifestOf_nil_results hx, List.append_nil]
    · rw [e1, manifestOf_append] at heq
      have hx : manifestOf x = [] := by
        have := congrArg List.length heq
        rw [List.length_append] at this
        exact List.length_eq_zero_iff.mp (by omega)
      rw [e1, List.flatMap_append, manifestOf_nil_results hx, List.append_nil]

/-- **Nothing is missed.**  When the producer has written everything, the reader, whatever it did in between, has handed on all documents after enough
further rounds. -/
theorem C93_all_partial (s : Text) (os : List Out) (files : Text → Option Text) (h : OneSequence s os)
    (evs : List TEv) (hops : opsIn evs = opsAll (emissions 0 os)) (hw : WholeLines files evs) :
    ∃ n, ∀ k ≥ n, (Tail.run files (evs ++ rounds k)).alive = true ∧
      (Tail.run files (evs ++ rounds k)).out = os.flatMap handed := by
  obtain ⟨l1, l2, m, h1, h2, h3, h4, h5⟩ := cut_disk s os files h (opsIn evs) (by rw [hops]; exact List.prefix_refl _)
  have hl1 : emissions 0 os = l1 := by rw [h1, h5 hops, List.append_nil]
  have hman : (exec ⟨files, []⟩ (opsIn evs)).manifest = manifestOf l1 := by
    obtain ⟨e1, _⟩ := exec_opsAll (emissions 0 os) ⟨files, []⟩ (emissions_nodup s os 0 h.seq h.numbers)
    rw [hops, e1, hl1]; rfl
  have hnow : completePart (exec ⟨files, []⟩ (opsIn evs)).manifest = (exec ⟨files, []⟩ (opsIn evs)).manifest := by
    rw [hman]
    have := completePart_line (manifestOf l1) [] (by simp) (manifestOf_end l1)
    rwa [List.append_nil] at this
  obtain ⟨n, hn⟩ := C93_catches_up_partial s os files h evs (by rw [hops]; exact List.prefix_refl _) hw hnow
  refine ⟨n, fun k hk => ⟨(hn k hk).1, ?_⟩⟩
  have h6 := (hn k hk).2
  have h7 : (exec ⟨files, []⟩ (opsIn evs)).read = some (os.flatMap handed) := by
    unfold Disk.read
    rw [hman, ← result_eq os 0, hl1]
    exact readAll_manifest _ _ (fun e he => emissions_good h.comma h.newline os 0 h.seq e (by rw [hl1]; exact he)) h4
  rw [h7] at h6
  exact (Option.some.inj h6).symm

/-- A schedule for `exOuts`: the reader looks before anything is written, after the first document, while the second document's file is half written, and in the middle
of handing on. -/
def exTail : List TEv :=
  let ops := (opsAll (emissions 0 exOuts)).map TEv.op
  [.readline, .fetch] ++ ops.take 27 ++ [.readline] ++ (ops.drop 27).take 2 ++ [.fetch, .readline] ++ (ops.drop 29)

example : OneSequence "seq".toList exOuts ∧ opsIn exTail = opsAll (emissions 0 exOuts) ∧
    (Tail.run (fun _ => none) exTail).out = [(1000000, "one".toList)] ∧
    (Tail.run (fun _ => none) (exTail ++ rounds 3)).out = exOuts.flatMap handed :=
  ⟨exOuts_one, by decide +kernel, by decide +kernel, by decide +kernel⟩

/-- `exTail` meets `WholeLines`. -/
def wholeB (files : Text → Option Text) : Disk → List TEv → Bool
  | _, [] => true
  | d, .op o :: es => wholeB files (step d o) es
  | d, .readline :: es => (completePart d.manifest == d.manifest) && wholeB files d es
  | d, .fetch :: es => wholeB files d es

theorem wholeB_sound (files : Text → Option Text) : ∀ (evs : List TEv) (pre : List Op),
    wholeB files (exec ⟨files, []⟩ pre) evs = true →
    ∀ a b, evs = a ++ .readline :: b →
      completePart (exec ⟨files, []⟩ (pre ++ opsIn a)).manifest = (exec ⟨files, []⟩ (pre ++ opsIn a)).manifest := by
  intro evs
  induction evs with
  | nil => intro pre _ a b hab; simp at hab
  | cons e es ih =>
    intro pre hb a b hab
    cases a with
    | nil =>
      simp only [List.nil_append, List.cons.injEq] at hab
      rw [hab.1] at hb
      unfold wholeB at hb
      rw [Bool.and_eq_true, beq_iff_eq] at hb
      simpa [opsIn] using hb.1
    | cons x xs =>
      simp only [List.cons_append, List.cons.injEq] at hab
      obtain ⟨rfl, hab⟩ := hab
      cases e with
      | op o =>
        unfold wholeB at hb
        have : step (exec ⟨files, []⟩ pre) o = exec ⟨files, []⟩ (pre ++ [o]) := by simp [exec]
        rw [this] at hb
        have := ih (pre ++ [o]) hb xs b hab
        simpa [opsIn] using this
      | readline =>
        unfold wholeB at hb
        rw [Bool.and_eq_true] at hb
        simpa [opsIn] using ih pre hb.2 xs b hab
      | fetch =>
        unfold wholeB at hb
        simpa [opsIn] using ih pre hb xs b hab

example : WholeLines (fun _ => none) exTail := by
  intro a b hab
  have := wholeB_sound (fun _ => none) exTail [] (by decide +kernel) a b hab
  simpa using this

/-! ### Where it fails -/

/-- A line that the reader sees half written: it is taken for a whole one, and the exception (here: no comma in it) ends the reading; the documents that follow are
never handed on. -/
theorem C93_false_half_line :
    let evs := ((opsAll (emissions 0 exOuts)).take 8).map TEv.op ++ [.readline, .fetch] ++
      ((opsAll (emissions 0 exOuts)).drop 8).map TEv.op
    OneSequence "seq".toList exOuts ∧ opsIn evs = opsAll (emissions 0 exOuts) ∧
    (Tail.run (fun _ => none) evs).alive = false ∧
    (Tail.run (fun _ => none) (evs ++ rounds 9)).out = [] :=
  ⟨exOuts_one, by decide +kernel, by decide +kernel, by decide +kernel⟩

/-- An exception ends the reading, whatever happens afterwards. -/
theorem C93_dead (files : Text → Option Text) (evs more : List TEv) (h : (Tail.run files evs).alive = false) :
    (Tail.run files (evs ++ more)).alive = false ∧ (Tail.run files (evs ++ more)).out = (Tail.run files evs).out := by
  have : ∀ (more : List TEv) (s : Tail), s.alive = false →
      (more.foldl Tail.step s).alive = false ∧ (more.foldl Tail.step s).out = s.out := by
    intro more
    induction more with
    | nil => exact fun s hs => ⟨hs, rfl⟩
    | cons e es ih =>
      intro s hs
      have h1 : (s.step e).alive = false ∧ (s.step e).out = s.out := by
        cases e <;> simp [Tail.step, hs]
      rw [List.foldl_cons]
      obtain ⟨h2, h3⟩ := ih _ h1.1
      exact ⟨h2, h3.trans h1.2⟩
  unfold Tail.run at h ⊢
  rw [List.foldl_append]
  exact this more _ h

/-- A number given out twice: the file is written again between the two lines, so the reader hands on half of the second document under the first one's time and never the first
document. -/
theorem C93_false_number_reused :
    let os : List Out := [⟨"s".toList, some 1, "one".toList, some 0, none⟩, ⟨"s".toList, some 1, "two".toList, some 1000000, none⟩]
    let ops := (opsAll (emissions 0 os)).map TEv.op
    let evs := ops.take 25 ++ [.readline] ++ (ops.drop 25).take 2 ++ [.fetch] ++ ops.drop 27
    opsIn evs = opsAll (emissions 0 os) ∧
    (Tail.run (fun _ => none) (evs ++ rounds 5)).out = [(0, "t".toList), (1000000, "two".toList)] :=
  ⟨by decide +kernel, by decide +kernel⟩

/-- A rotating buffer removes a file that the manifest lists before the reader gets to it: the reading ends, although the file of the next line is there. -/
theorem C93_false_rotation :
    let es := emissions 0 exOuts
    let evs := (opsAll es).map TEv.op ++ [.op (.remove "seq_1.xml".toList)]
    (Tail.run (fun _ => none) (evs ++ rounds 5)).alive = false ∧
    (Tail.run (fun _ => none) (evs ++ rounds 5)).out = [] ∧
    (Tail.run (fun _ => none) (evs ++ rounds 5)).disk.files "seq_2.xml".toList = some "two".toList :=
  ⟨by decide +kernel, by decide +kernel, by decide +kernel⟩

end Verif.Fs
