import Verif.Fs.Lemmas

/-!
# Properties of the filesystem carriage (C44, C45, C46)
-/
namespace Verif.Fs
open Verif.Time

/-! ### Specification -/

/-- The whole milliseconds of a time in microseconds (rounded down). -/
def wholeMs (t : Int) : Int := t - t % 1000

/-- What a reader should be handed for one document given to the producer: its content with the
availability time, `delay` included, to the millisecond.  Nothing without an availability time (there
is no manifest line then) and nothing for an empty file. -/
def handed (o : Out) : List (Int × Text) :=
  match o.avail with
  | none => []
  | some t => if o.data = [] then [] else [(wholeMs (t + o.delay.getD 0), o.data)]

/-- Documents of one sequence whose identifier has no comma or line end, no number used twice.
Messages, which have no number, are unrestricted. -/
structure OneSequence (s : Text) (os : List Out) : Prop where
  seq : ∀ o ∈ os, o.seq = s
  comma : ',' ∉ s
  newline : '\n' ∉ s
  numbers : (os.filterMap (·.num)).Nodup

/-- The run of a producer started with message counter 0 on a directory without manifest. -/
def produced (files : Text → Option Text) (os : List Out) : Disk :=
  exec ⟨files, []⟩ (opsAll (emissions 0 os))

/-- The part of a text up to its last line end: what is there of complete lines. -/
def completePart (m : Text) : Text := (m.reverse.dropWhile (· ≠ '\n')).reverse

theorem wholeMs_eq (t : Int) : t / 1000 * 1000 = wholeMs t := by unfold wholeMs; omega

theorem result_eq : ∀ (os : List Out) (k : Nat), (emissions k os).flatMap result = os.flatMap handed := by
  intro os
  induction os with
  | nil => intro k; rfl
  | cons o os ih =>
    intro k
    have h : ∀ f : Text, result ⟨f, o.data, lineTime o⟩ = handed o := by
      intro f
      unfold result handed lineTime
      cases o.avail with
      | none => rfl
      | some t =>
        simp only [Option.map_some, wholeMs_eq]
        cases o.delay <;> simp
    unfold emissions
    cases o.num <;> simp [h, ih]

/-! ### C44 -/

/-- Writing a manifest time and reading it back gives the same time to the millisecond, negative
times and times of more than a day included. -/
theorem C44_times (t : Int) : readTime (fmtTime t) = some (wholeMs t) := by
  rw [readTime_fmtTime, wholeMs_eq]

example : fmtTime 363723004005 = "101:02:03.004".toList ∧ readTime "101:02:03.004".toList = some 363723004000 := by
  decide +kernel

example : fmtTime (-1) = "-1:59:59.999".toList ∧ readTime "-1:59:59.999".toList = some (-1000) := by
  decide +kernel

/-- **C44.** Reading the manifest that the producer left hands on exactly the documents given to it,
in order, each with its own content and its availability time to the millisecond — for every series
of documents and messages of one sequence and whatever files were in the directory before. -/
theorem C44_read_back_partial (s : Text) (os : List Out) (files : Text → Option Text) (h : OneSequence s os) :
    (produced files os).read = some (os.flatMap handed) := by
  have hn := emissions_nodup s os 0 h.seq h.numbers
  obtain ⟨h1, h2, _⟩ := exec_opsAll (emissions 0 os) ⟨files, []⟩ hn
  unfold Disk.read produced
  rw [h1, List.nil_append, readAll_manifest _ _ (emissions_good h.comma h.newline os 0 h.seq) h2, result_eq]

/-- A manifest left by an earlier run is read first, and then the new documents follow. -/
theorem C44_appended_partial (s : Text) (os : List Out) (d : Disk) (h : OneSequence s os)
    (old : List (Int × Text)) (hm : d.manifest = [] ∨ ∃ l, d.manifest = l ++ ['\n'])
    (hold : d.read = some old)
    (hfree : ∀ e ∈ emissions 0 os, d.files e.name = none) :
    (exec d (opsAll (emissions 0 os))).read = some (old ++ os.flatMap handed) := by
  have hn := emissions_nodup s os 0 h.seq h.numbers
  obtain ⟨h1, h2, h3⟩ := exec_opsAll (emissions 0 os) d hn
  have hlines : ∀ (a : Text), (a = [] ∨ ∃ l, a = l ++ ['\n']) → ∀ b, readLines (a ++ b) = readLines a ++ readLines b := by
    intro a
    induction a with
    | nil => intro _ b; rfl
    | cons c cs ih =>
      intro ha b
      have hcs : cs = [] ∧ c = '\n' ∨ (∃ l, cs = l ++ ['\n']) := by
        rcases ha with ha | ⟨l, hl⟩
        · cases ha
        · cases l with
          | nil => left; simpa [and_comm] using hl
          | cons x xs =>
            rw [List.cons_append, List.cons.injEq] at hl
            exact .inr ⟨xs, hl.2⟩
      by_cases hc : c = '\n'
      · rw [List.cons_append, readLines, readLines, if_pos hc, if_pos hc, ih]
        · rfl
        · rcases hcs with h | h
          · exact .inl h.1
          · exact .inr h
      · rcases hcs with h | h
        · exact absurd h.2 hc
        · have := ih (.inr h) b
          obtain ⟨l, hl⟩ := h
          rw [List.cons_append, readLines, readLines, if_neg hc, if_neg hc, this]
          cases hr : readLines cs with
          | nil =>
            exfalso
            rw [hl] at hr
            cases l with
            | nil => simp [readLines] at hr
            | cons x xs =>
              rw [List.cons_append, readLines] at hr
              split at hr
              · cases hr
              · split at hr <;> cases hr
          | cons y ys => rfl
  have hsame : ∀ (ls : List Text) (r : List (Int × Text)), readAll d.files ls = some r →
      readAll (exec d (opsAll (emissions 0 os))).files ls = some r := by
    intro ls
    induction ls with
    | nil => exact fun r hr => hr
    | cons l ls ih =>
      intro r hr
      rw [readAll] at hr
      cases hl : readLine d.files l with
      | none => rw [hl] at hr; cases hr
      | some x =>
        cases hls : readAll d.files ls with
        | none => rw [hl, hls] at hr; cases hr
        | some y =>
          rw [hl, hls] at hr
          have hl' : readLine (exec d (opsAll (emissions 0 os))).files l = some x := by
            unfold readLine at hl ⊢
            split at hl
            · rename_i ts f hsp
              cases hf : d.files f with
              | none => rw [hf] at hl; cases hl
              | some c =>
                have : f ∉ (emissions 0 os).map (·.name) := by
                  intro hm
                  obtain ⟨e, he, rfl⟩ := List.mem_map.mp hm
                  rw [hfree e he] at hf; cases hf
                rw [hf] at hl
                rw [h3 f this, hf]
                exact hl
            · cases hl
          rw [readAll, hl', ih y hls]; exact hr
  unfold Disk.read at hold ⊢
  rw [h1, hlines _ hm, readAll_append, hsame _ _ hold,
    readAll_manifest _ _ (emissions_good h.comma h.newline os 0 h.seq) h2, result_eq]
  rfl

/-- Documents and messages of one sequence, one of them delayed and one without availability time. -/
def exOuts : List Out :=
  [⟨"seq".toList, some 1, "one".toList, some 1000000, none⟩,
   ⟨"seq".toList, none, "msg".toList, some 1500000, none⟩,
   ⟨"seq".toList, some 2, "two".toList, some 2000500, some 250000⟩,
   ⟨"seq".toList, none, "lost".toList, none, none⟩,
   ⟨"seq".toList, some 3, "three".toList, some 90000000000, none⟩]

theorem exOuts_one : OneSequence "seq".toList exOuts := by
  refine ⟨by decide +kernel, by decide +kernel, by decide +kernel, by decide +kernel⟩

/-- `C44_read_back_partial` applies, and what is handed on is what one expects. -/
example : OneSequence "seq".toList exOuts ∧ exOuts.flatMap handed =
    [(1000000, "one".toList), (1500000, "msg".toList), (2250000, "two".toList), (90000000000, "three".toList)] :=
  ⟨exOuts_one, by decide +kernel⟩

example : (produced (fun _ => none) exOuts).manifest =
    "00:00:01.000,seq_1.xml\n00:00:01.500,seq_msg_1.xml\n00:00:02.250,seq_2.xml\n25:00:00.000,seq_3.xml\n".toList := by
  decide +kernel

/-- The hypotheses of `C44_appended_partial` are met by a directory with an earlier run's file in it. -/
example : let d : Disk := ⟨fun f => if f = "old_1.xml".toList then some "x".toList else none, "00:00:00.500,old_1.xml\n".toList⟩
    d.read = some [(500000, "x".toList)] ∧ (∀ e ∈ emissions 0 exOuts, d.files e.name = none) ∧
    (∃ l, d.manifest = l ++ ['\n']) := by
  refine ⟨by decide +kernel, by decide +kernel, ⟨"00:00:00.500,old_1.xml".toList, by decide +kernel⟩⟩

/-- A comma in the sequence identifier makes the manifest unreadable. -/
theorem C44_false_comma :
    (produced (fun _ => none) [⟨"a,b".toList, some 1, "one".toList, some 0, none⟩]).read = none := by
  decide +kernel

/-- A number written twice: the reader is handed the second content for both lines. -/
theorem C44_false_number_reused :
    (produced (fun _ => none) [⟨"s".toList, some 1, "one".toList, some 0, none⟩,
      ⟨"s".toList, some 1, "two".toList, some 1000000, none⟩]).read
      = some [(0, "two".toList), (1000000, "two".toList)] := by
  decide +kernel

/-- Two sequences with different identifiers can be given the same file name. -/
theorem C44_false_names_clash :
    (produced (fun _ => none) [⟨"s".toList, none, "message".toList, some 0, none⟩,
      ⟨"s_msg".toList, some 1, "document".toList, some 1000000, none⟩]).read
      = some [(0, "document".toList), (1000000, "document".toList)] := by
  decide +kernel

/-- A document without availability time is written but never handed on. -/
theorem C44_false_no_availability :
    let d := produced (fun _ => none) [⟨"s".toList, some 1, "one".toList, none, none⟩]
    d.files (docName "s".toList 1) = some "one".toList ∧ d.read = some [] := by
  decide +kernel

/-! ### C45 -/

theorem completePart_line (a m : Text) (hm : '\n' ∉ m) (ha : a = [] ∨ ∃ l, a = l ++ ['\n']) :
    completePart (a ++ m) = a := by
  unfold completePart
  rw [List.reverse_append, List.dropWhile_append_of_pos (by
    intro c hc
    simp only [decide_eq_true_eq]
    rintro rfl
    exact hm (List.mem_reverse.mp hc))]
  rcases ha with rfl | ⟨l, rfl⟩
  · rfl
  · simp

theorem manifestOf_end (es : List Emission) : manifestOf es = [] ∨ ∃ l, manifestOf es = l ++ ['\n'] := by
  induction es with
  | nil => exact .inl rfl
  | cons e es ih =>
    have h1 : manifestOf (e :: es) = lineText e ++ manifestOf es := by simp [manifestOf]
    rw [h1]
    rcases ih with h | ⟨l, h⟩
    · rw [h, List.append_nil]
      unfold lineText
      cases e.time with
      | none => exact .inl rfl
      | some t => exact .inr ⟨fmtTime t ++ ',' :: e.name, by simp [lineOf]⟩
    · exact .inr ⟨lineText e ++ l, by rw [h, List.append_assoc]⟩

/-- **C45.** Stop the producer after any number of its smallest steps, in the middle of a file or of
a manifest line if you like.  The complete lines of the manifest are then exactly those of some first
part of the documents, they can all be read, and every file they name holds the whole document. -/
theorem C45_crash (s : Text) (os : List Out) (files : Text → Option Text) (h : OneSequence s os)
    (ops : List Op) (hcut : ops <+: opsAll (emissions 0 os)) :
    ∃ os1 os2, os = os1 ++ os2 ∧
      readAll (exec ⟨files, []⟩ ops).files (readLines (completePart (exec ⟨files, []⟩ ops).manifest))
        = some (os1.flatMap handed) := by
  have hn := emissions_nodup s os 0 h.seq h.numbers
  have hg := emissions_good h.comma h.newline os 0 h.seq
  obtain ⟨l1, l2, hl, hc⟩ := prefix_flatMap opsOf _ ops hcut
  -- split the documents where the writes are split
  have hsplit : ∀ (os : List Out) (k : Nat) (l1 l2 : List Emission), emissions k os = l1 ++ l2 →
      ∃ os1 os2, os = os1 ++ os2 ∧ os1.flatMap handed = l1.flatMap result := by
    intro os k l1 l2 he
    refine ⟨os.take l1.length, os.drop l1.length, (List.take_append_drop _ _).symm, ?_⟩
    have hlen : ∀ (os : List Out) (k n : Nat), (emissions k (os.take n)) = (emissions k os).take n := by
      intro os
      induction os with
      | nil => intro k n; simp [emissions]
      | cons o os ih =>
        intro k n
        cases n with
        | zero => simp [emissions]
        | succ n =>
          rw [List.take_succ_cons]
          unfold emissions
          cases o.num <;> simp [ih]
    rw [← result_eq _ k, hlen, he, List.take_left]
  obtain ⟨os1, os2, hos, hres⟩ := hsplit os 0 l1 l2 hl
  refine ⟨os1, os2, hos, ?_⟩
  rw [hres]
  have hn1 : (l1.map (·.name)).Nodup := by
    rw [hl, List.map_append] at hn; exact (List.nodup_append.mp hn).1
  have hg1 : ∀ e ∈ l1, Good e.name := fun e he => hg e (by rw [hl]; exact List.mem_append_left _ he)
  obtain ⟨e1, e2, _⟩ := exec_opsAll l1 ⟨files, []⟩ hn1
  rcases hc with rfl | ⟨e, l3, q, rfl, hq, hqn, rfl⟩
  · have e1 : (exec ⟨files, []⟩ (l1.flatMap opsOf)).manifest = manifestOf l1 := by
      rw [show l1.flatMap opsOf = opsAll l1 from rfl, e1, List.nil_append]
    rw [e1]
    have := completePart_line (manifestOf l1) [] (by simp) (manifestOf_end l1)
    rw [List.append_nil] at this
    rw [this]
    exact readAll_manifest _ _ hg1 e2
  · rw [exec_append]
    obtain ⟨c1, c2⟩ := exec_cut (exec ⟨files, []⟩ (l1.flatMap opsOf)) e q hq hqn
    have hfiles : ∀ x ∈ l1, (exec (exec ⟨files, []⟩ (l1.flatMap opsOf)) q).files x.name = some x.data := by
      intro x hx
      rw [c1 x.name ?_]
      · exact e2 x hx
      · intro heq
        rw [hl, List.map_append, List.map_cons] at hn
        exact (List.nodup_append.mp hn).2.2 x.name (List.mem_map_of_mem hx) e.name List.mem_cons_self heq
    have hpart : ∃ m, '\n' ∉ m ∧ (exec (exec ⟨files, []⟩ (l1.flatMap opsOf)) q).manifest = manifestOf l1 ++ m := by
      have e1' : (exec ⟨files, []⟩ (l1.flatMap opsOf)).manifest = manifestOf l1 := by
        rw [show l1.flatMap opsOf = opsAll l1 from rfl, e1, List.nil_append]
      rcases c2 with c2 | ⟨m, hm, hmn, c2⟩
      · exact ⟨[], by simp, by rw [c2, e1', List.append_nil]⟩
      · refine ⟨m, ?_, by rw [c2, e1']⟩
        intro hmem
        unfold lineText at hm hmn
        have hge := hg e (by rw [hl]; simp)
        cases ht : e.time with
        | none => rw [ht] at hm; rw [List.prefix_nil.mp hm] at hmem; simp at hmem
        | some t =>
          rw [ht] at hm hmn
          simp only at hm hmn
          have hbody : '\n' ∉ fmtTime t ++ ',' :: e.name := by
            rw [List.mem_append, List.mem_cons]
            rintro (h' | h' | h')
            · exact fmtTime_notMem t (by decide) (by decide) (by decide) (by decide) h'
            · exact absurd h' (by decide)
            · exact hge.newline h'
          have hlo : lineOf t e.name = (fmtTime t ++ ',' :: e.name) ++ ['\n'] := by simp [lineOf]
          rw [hlo] at hm hmn
          rcases List.prefix_or_prefix_of_prefix hm (List.prefix_append _ ['\n']) with h' | h'
          · exact hbody (h'.subset hmem)
          · obtain ⟨r, rfl⟩ := h'
            rw [List.prefix_append_right_inj] at hm
            obtain ⟨r', hr'⟩ := hm
            cases r with
            | nil => rw [List.append_nil] at hmem; exact hbody hmem
            | cons c cs =>
              simp only [List.cons_append, List.cons.injEq, List.append_eq_nil_iff] at hr'
              apply hmn
              rw [hr'.1, hr'.2.1]
    obtain ⟨m, hm1, hm2⟩ := hpart
    rw [hm2, completePart_line _ _ hm1 (manifestOf_end l1)]
    exact readAll_manifest _ _ hg1 hfiles

/-- A run cut inside its second document's manifest line: the second file is there, but not in the
complete part of the manifest. -/
example : let ops := (opsAll (emissions 0 exOuts)).take 50
    ops <+: opsAll (emissions 0 exOuts) ∧ OneSequence "seq".toList exOuts ∧
    (exec ⟨fun _ => none, []⟩ ops).manifest = "00:00:01.000,seq_1.xml\n00:00:01.500,seq_ms".toList ∧
    completePart (exec ⟨fun _ => none, []⟩ ops).manifest = "00:00:01.000,seq_1.xml\n".toList :=
  ⟨List.take_prefix _ _, exOuts_one, by decide +kernel, by decide +kernel⟩

/-- A number written a second time empties a file that the manifest already lists. -/
theorem C45_false_number_reused :
    let os : List Out := [⟨"s".toList, some 1, "one".toList, some 0, none⟩, ⟨"s".toList, some 1, "two".toList, some 0, none⟩]
    let ops := opsOf ⟨docName "s".toList 1, "one".toList, some 0⟩ ++ [.create (docName "s".toList 1), .put (docName "s".toList 1) 't']
    ops <+: opsAll (emissions 0 os) ∧
    (exec Disk.empty ops).manifest = "00:00:00.000,s_1.xml\n".toList ∧
    (exec Disk.empty ops).files "s_1.xml".toList = some "t".toList := by
  refine ⟨by decide +kernel, by decide +kernel, by decide +kernel⟩

/-- With the rotating buffer the manifest keeps listing files that have been removed, and reading it
fails at the first of them. -/
theorem C45_false_rotation :
    (exec Disk.empty (opsOf ⟨docName "s".toList 1, "one".toList, some 0⟩ ++
      opsOf ⟨docName "s".toList 2, "two".toList, some 0⟩ ++ [.remove (docName "s".toList 1)])).read = none := by
  decide +kernel

/-- Reading a manifest whose last line is not complete yet raises an exception. -/
theorem C45_false_tail :
    (exec Disk.empty ((opsOf ⟨docName "s".toList 1, "one".toList, some 0⟩).take 9)).manifest = "00:00".toList ∧
    (exec Disk.empty ((opsOf ⟨docName "s".toList 1, "one".toList, some 0⟩).take 9)).read = none := by
  decide +kernel

/-! ### C46 -/

/-- The last `n` elements. -/
def lastN (n : Nat) (l : List Text) : List Text := l.drop (l.length - n)

/-- **C46.** At every moment of every schedule of writes and of the deleting thread, whose `os.remove`
may also fail: the removed files are the oldest ones, in the order of writing, each removed once; what
is on disk is exactly what was written later; the last `n` files are never touched. -/
theorem C46_keeps_latest (n : Nat) (hn : 0 < n) (evs : List REv) (hd : (writes evs).Nodup) :
    writes evs = (Rot.run n evs).removed ++ (Rot.run n evs).disk ∧
    ∃ late, (Rot.run n evs).disk = late ++ lastN n (writes evs) := by
  have hw : (Rot.run n evs).written = writes evs := by
    have := run_written n evs {}; simpa [Rot.run] using this
  obtain ⟨h1, h2⟩ := RInv.run hn evs
  have h3 := run_disk hn evs hd
  rw [hw] at h1 h2
  refine ⟨by rw [h3, h1]; simp, ⟨(Rot.run n evs).waiting ++ (Rot.run n evs).queue, ?_⟩⟩
  rw [h3]
  congr 1
  unfold lastN
  have hlen := congrArg List.length h1
  simp only [List.length_append] at hlen
  have : (writes evs).length - n = ((Rot.run n evs).removed ++ (Rot.run n evs).waiting ++ (Rot.run n evs).queue).length := by
    simp only [List.length_append]; omega
  rw [this]
  exact (List.drop_left).symm.trans (congrArg _ h1.symm)

/-- Once the thread has caught up, exactly the last `n` files are on disk. -/
theorem C46_exactly_latest (n : Nat) (hn : 0 < n) (evs : List REv) (hd : (writes evs).Nodup)
    (hq : (Rot.run n evs).queue = []) (hw : (Rot.run n evs).waiting = []) :
    (Rot.run n evs).disk = lastN n (writes evs) ∧
    (Rot.run n evs).removed = (writes evs).take ((writes evs).length - n) := by
  obtain ⟨h1, late, h2⟩ := C46_keeps_latest n hn evs hd
  have h3 := run_disk hn evs hd
  obtain ⟨h4, h5⟩ := RInv.run hn evs
  rw [hq, hw, List.nil_append, List.nil_append] at h3
  have hw' : (Rot.run n evs).written = writes evs := by
    have := run_written n evs {}; simpa [Rot.run] using this
  rw [hw'] at h5
  rw [h3] at h1 h2 ⊢
  have hlen1 := congrArg List.length h1
  have hlen2 := congrArg List.length h2
  simp only [List.length_append, lastN, List.length_drop] at hlen1 hlen2
  have hl : late = [] := by apply List.eq_nil_of_length_eq_zero; omega
  rw [hl, List.nil_append] at h2
  refine ⟨h2, ?_⟩
  have : (writes evs).length - n = (Rot.run n evs).removed.length := by omega
  rw [this]
  exact (List.take_left).symm.trans (congrArg _ h1.symm)

/-- The thread catches up: if it is alive, taking and removing often enough empties the queue. -/
theorem C46_catches_up (n : Nat) (evs : List REv) (ha : (Rot.run n evs).alive = true) :
    ∃ more : List REv, (∀ e ∈ more, e = .take ∨ e = .del) ∧
      (Rot.run n (evs ++ more)).queue = [] ∧ (Rot.run n (evs ++ more)).waiting = [] := by
  have drain : ∀ (k : Nat) (s : Rot), s.alive = true → s.queue.length * 2 + s.waiting.length = k →
      ∃ more : List REv, (∀ e ∈ more, e = .take ∨ e = .del) ∧
        (more.foldl (Rot.step n) s).queue = [] ∧ (more.foldl (Rot.step n) s).waiting = [] := by
    intro k
    induction k using Nat.strongRecOn with
    | _ k ih =>
      intro s hs hk
      cases hw : s.waiting with
      | cons x w =>
        obtain ⟨more, h1, h2⟩ := ih (s.queue.length * 2 + w.length) (by rw [hw] at hk; simp at hk; omega)
          (Rot.step n s .del) (by simp [Rot.step, hs, hw]) (by simp [Rot.step, hs, hw])
        refine ⟨.del :: more, ?_, h2⟩
        intro e he
        rcases List.mem_cons.mp he with rfl | he
        · exact .inr rfl
        · exact h1 e he
      | nil =>
        cases hq : s.queue with
        | nil => exact ⟨[], by simp, hq, hw⟩
        | cons x q =>
          obtain ⟨more, h1, h2⟩ := ih (q.length * 2 + 1) (by rw [hw, hq] at hk; simp at hk; omega)
            (Rot.step n s .take) (by simp [Rot.step, hs, hw, hq]) (by simp [Rot.step, hs, hw, hq])
          refine ⟨.take :: more, ?_, h2⟩
          intro e he
          rcases List.mem_cons.mp he with rfl | he
          · exact .inl rfl
          · exact h1 e he
  obtain ⟨more, h1, h2⟩ := drain _ _ ha rfl
  exact ⟨more, h1, by simpa [Rot.run, List.foldl_append] using h2⟩

/-- Five files through a buffer of two, the thread working in between. -/
def exRot : List REv :=
  [.write ['a'], .write ['b'], .write ['c'], .write ['d'], .take, .write ['e'], .del, .take, .del, .take, .del]

example : (writes exRot).Nodup ∧ (Rot.run 2 exRot).queue = [] ∧ (Rot.run 2 exRot).waiting = [] ∧
    (Rot.run 2 exRot).alive = true ∧
    (Rot.run 2 exRot).disk = [['d'], ['e']] ∧ (Rot.run 2 exRot).removed = [['a'], ['b'], ['c']] := by
  decide +kernel

/-- A file written again is removed although it is the newest one. -/
theorem C46_false_rewritten :
    (Rot.run 2 [.write ['a'], .write ['b'], .write ['a'], .take, .del]).disk = [['b']] := by
  decide +kernel

/-- A failing `os.remove` ends the thread: from then on nothing is removed any more. -/
theorem C46_false_failure (n : Nat) (evs more : List REv) :
    (Rot.run n (evs ++ .die :: more)).removed = (Rot.run n evs).removed := by
  have : ∀ (more : List REv) (s : Rot), s.alive = false → (more.foldl (Rot.step n) s).removed = s.removed := by
    intro more
    induction more with
    | nil => exact fun s _ => rfl
    | cons e es ih =>
      intro s hs
      rw [List.foldl_cons, ih]
      · cases e <;> simp only [Rot.step, hs]
        · cases s.ring <;> simp only <;> (try split) <;> rfl
        · simp
        · simp
      · cases e <;> simp only [Rot.step, hs]
        · cases s.ring <;> simp only <;> (try split) <;> (first | rfl | exact hs)
        · simp [hs]
        · simp [hs]
  unfold Rot.run
  rw [List.foldl_append, List.foldl_cons, this]
  · rfl
  · rfl

end Verif.Fs
