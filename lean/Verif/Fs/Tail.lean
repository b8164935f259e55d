import Verif.Fs.Props

/-!
# A reader that follows the manifest (`tail`) while the producer writes

`FilesystemReader.resume_reading` (filesystem.py:242-262) with `do_tail`, step by step, interleaved in any way with the steps of the producer.
-/
namespace Verif.Fs

/-- What can happen next. -/
inductive TEv where
  /-- a step of the producer or of somebody else in the directory -/
  | op (o : Op)
  /-- `readline()` (filesystem.py:245); at the end of the file the reader goes to sleep (:246-249) -/
  | readline
  /-- the line in hand is taken apart, its file is read and handed on (filesystem.py:254-262, 213-218).  A single step: what the
  file contains is looked at once. -/
  | fetch
deriving DecidableEq

/-- The directory and the reader: how far it has read the manifest, the line it has in hand, what it has handed on, and whether it is still reading: an
exception ends it for good. -/
structure Tail where
  disk : Disk
  pos : Nat := 0
  hand : Option Text := none
  out : List (Int × Text) := []
  alive : Bool := true

/-- One step. -/
def Tail.step (s : Tail) : TEv → Tail
  | .op o => { s with disk := Fs.step s.disk o }
  | .readline =>
    match s.alive, s.hand with
    | true, none =>
      match readLines (s.disk.manifest.drop s.pos) with
      | [] => s
      | l :: _ => { s with pos := s.pos + l.length, hand := some l }
    | _, _ => s
  | .fetch =>
    match s.alive, s.hand with
    | true, some l =>
      match readLine s.disk.files l with
      | none => { s with hand := none, alive := false }
      | some r => { s with hand := none, out := s.out ++ r.toList }
    | _, _ => s

/-- A schedule, from an output directory without manifest. -/
def Tail.run (files : Text → Option Text) (evs : List TEv) : Tail := evs.foldl Tail.step { disk := ⟨files, []⟩ }

/-- The producer's steps in a schedule. -/
def opsIn (evs : List TEv) : List Op := evs.filterMap (fun | .op o => some o | _ => none)

/-! ### Lemmas -/

theorem snoc_induction {α : Type} {P : List α → Prop} (h0 : P []) (h1 : ∀ l x, P l → P (l ++ [x])) : ∀ l, P l := by
  have : ∀ l : List α, P l.reverse := by
    intro l
    induction l with
    | nil => exact h0
    | cons x xs ih => rw [List.reverse_cons]; exact h1 _ _ ih
  intro l
  have := this l.reverse
  rwa [List.reverse_reverse] at this

theorem Tail.run_snoc (files : Text → Option Text) (evs : List TEv) (e : TEv) :
    Tail.run files (evs ++ [e]) = Tail.step (Tail.run files evs) e := by
  simp [Tail.run]

theorem step_reader_disk (s : Tail) (e : TEv) (h : ∀ o, e ≠ .op o) : (s.step e).disk = s.disk := by
  cases e with
  | op o => exact absurd rfl (h o)
  | readline =>
    unfold Tail.step
    cases s.alive <;> cases s.hand <;> simp only
    cases readLines (s.disk.manifest.drop s.pos) <;> rfl
  | fetch =>
    unfold Tail.step
    cases s.alive <;> cases s.hand <;> simp only
    split <;> rfl

theorem run_disk_eq (files : Text → Option Text) : ∀ evs : List TEv, (Tail.run files evs).disk = exec ⟨files, []⟩ (opsIn evs) := by
  apply snoc_induction
  · rfl
  · intro evs e ih
    rw [Tail.run_snoc]
    have happ : opsIn (evs ++ [e]) = opsIn evs ++ opsIn [e] := by simp [opsIn]
    rw [happ, exec_append, ← ih]
    cases e with
    | op o => rfl
    | readline => rw [step_reader_disk _ _ (by simp)]; rfl
    | fetch => rw [step_reader_disk _ _ (by simp)]; rfl

/-- The directory when the producer is anywhere in its run. -/
theorem cut_disk (s : Text) (os : List Out) (files : Text → Option Text) (h : OneSequence s os)
    (ops : List Op) (hcut : ops <+: opsAll (emissions 0 os)) :
    ∃ l1 l2 m, emissions 0 os = l1 ++ l2 ∧ '\n' ∉ m ∧ (exec ⟨files, []⟩ ops).manifest = manifestOf l1 ++ m ∧
      (∀ x ∈ l1, (exec ⟨files, []⟩ ops).files x.name = some x.data) ∧
      (ops = opsAll (emissions 0 os) → l2 = []) := by
  have hn := emissions_nodup s os 0 h.seq h.numbers
  have hg := emissions_good h.comma h.newline os 0 h.seq
  by_cases hall : ops = opsAll (emissions 0 os)
  · obtain ⟨e1, e2, _⟩ := exec_opsAll (emissions 0 os) ⟨files, []⟩ hn
    refine ⟨emissions 0 os, [], [], by simp, by simp, ?_, ?_, fun _ => rfl⟩
    · rw [hall, e1]; simp
    · rw [hall]; exact e2
  obtain ⟨l1, l2, hl, hc⟩ := prefix_flatMap opsOf _ ops hcut
  have hn1 : (l1.map (·.name)).Nodup := by
    rw [hl, List.map_append] at hn; exact (List.nodup_append.mp hn).1
  obtain ⟨e1, e2, _⟩ := exec_opsAll l1 ⟨files, []⟩ hn1
  have e1' : (exec ⟨files, []⟩ (l1.flatMap opsOf)).manifest = manifestOf l1 := by
    rw [show l1.flatMap opsOf = opsAll l1 from rfl, e1, List.nil_append]
  refine ⟨l1, l2, ?_⟩
  rcases hc with rfl | ⟨e, l3, q, rfl, hq, hqn, rfl⟩
  · exact ⟨[], hl, by simp, by rw [e1', List.append_nil], e2, fun hh => absurd hh hall⟩
  · rw [exec_append]
    obtain ⟨c1, c2⟩ := exec_cut (exec ⟨files, []⟩ (l1.flatMap opsOf)) e q hq hqn
    have hfiles : ∀ x ∈ l1, (exec (exec ⟨files, []⟩ (l1.flatMap opsOf)) q).files x.name = some x.data := by
      intro x hx
      rw [c1 x.name ?_]
      · exact e2 x hx
      · intro heq
        rw [hl, List.map_append, List.map_cons] at hn
        exact (List.nodup_append.mp hn).2.2 x.name (List.mem_map_of_mem hx) e.name List.mem_cons_self heq
    have hpart : ∃ m, '\n' ∉ m ∧ (exec (exec ⟨files, []⟩ (l1.flatMap opsOf)) q).manifest = manifestOf l1 ++ m := by
      rcases c2 with c2 | ⟨m, hm, hmn, c2⟩
      · exact ⟨[], by simp, by rw [c2, e1', List.append_nil]⟩
      · refine ⟨m, ?_, by rw [c2, e1']⟩
        intro hmem
        unfold lineText at hm hmn
        have hge := hg e (by rw [hl]; simp)
        cases ht : e.time with
        | none => rw [ht] at hm; rw [List.prefix_nil.mp hm] at hmem; simp at hmem
        | some t =>
          rw [ht] at hm hmn
          simp only at hm hmn
          have hbody : '\n' ∉ fmtTime t ++ ',' :: e.name := by
            rw [List.mem_append, List.mem_cons]
            rintro (h' | h' | h')
            · exact fmtTime_notMem t (by decide) (by decide) (by decide) (by decide) h'
            · exact absurd h' (by decide)
            · exact hge.newline h'
          have hlo : lineOf t e.name = (fmtTime t ++ ',' :: e.name) ++ ['\n'] := by simp [lineOf]
          rw [hlo] at hm hmn
          rcases List.prefix_or_prefix_of_prefix hm (List.prefix_append _ ['\n']) with h' | h'
          · exact hbody (h'.subset hmem)
          · obtain ⟨r, rfl⟩ := h'
            rw [List.prefix_append_right_inj] at hm
            obtain ⟨r', hr'⟩ := hm
            cases r with
            | nil => rw [List.append_nil] at hmem; exact hbody hmem
            | cons c cs =>
              simp only [List.cons_append, List.cons.injEq, List.append_eq_nil_iff] at hr'
              apply hmn
              rw [hr'.1, hr'.2.1]
    obtain ⟨m, hm1, hm2⟩ := hpart
    exact ⟨m, hl, hm1, hm2, hfiles, fun hh => absurd hh hall⟩

theorem manifestOf_append (a b : List Emission) : manifestOf (a ++ b) = manifestOf a ++ manifestOf b := by
  simp [manifestOf]

theorem manifestOf_nil_results {l : List Emission} (h : manifestOf l = []) : l.flatMap result = [] := by
  induction l with
  | nil => rfl
  | cons e es ih =>
    have h1 : lineText e ++ manifestOf es = [] := by simpa [manifestOf] using h
    rw [List.append_eq_nil_iff] at h1
    rw [List.flatMap_cons, ih h1.2, List.append_nil]
    unfold lineText at h1
    unfold result
    cases ht : e.time with
    | none => rfl
    | some t =>
      rw [ht] at h1
      have := h1.1
      simp [lineOf] at this

/-- The first line that is in a manifest. -/
theorem manifestOf_first : ∀ {l : List Emission}, manifestOf l ≠ [] →
    ∃ a e t b, l = a ++ e :: b ∧ manifestOf a = [] ∧ e.time = some t
  | [], h => absurd rfl h
  | e :: es, h => by
    cases ht : e.time with
    | some t => exact ⟨[], e, t, es, rfl, rfl, ht⟩
    | none =>
      have h1 : manifestOf (e :: es) = manifestOf es := by simp [manifestOf, lineText, ht]
      rw [h1] at h
      obtain ⟨a, e', t, b, h2, h3, h4⟩ := manifestOf_first h
      refine ⟨e :: a, e', t, b, by rw [h2]; rfl, ?_, h4⟩
      have : manifestOf (e :: a) = manifestOf a := by simp [manifestOf, lineText, ht]
      rw [this, h3]

theorem lineText_newline {e : Emission} {t : Int} (h : e.time = some t) : '\n' ∈ lineText e := by
  simp [lineText, h, lineOf]

theorem split_cases {α : Type} {a b c d : List α} (h : a ++ b = c ++ d) :
    (∃ x, c = a ++ x ∧ b = x ++ d) ∨ ∃ x, a = c ++ x ∧ d = x ++ b := by
  rcases List.append_eq_append_iff.mp h with ⟨x, h1, h2⟩ | ⟨x, h1, h2⟩
  · exact .inl ⟨x, h1, h2⟩
  · exact .inr ⟨x, h1, h2⟩

/-- What holds of a reader at every moment: `r` are the emissions it is done with. -/
inductive TInv (es : List Emission) (s : Tail) : Prop
  | idle (r l : List Emission) (hes : es = r ++ l) (hh : s.hand = none) (ha : s.alive = true)
      (hp : s.pos = (manifestOf r).length) (hm : manifestOf r <+: s.disk.manifest) (ho : s.out = r.flatMap result)
  | busy (r l : List Emission) (e : Emission) (t : Int) (hes : es = r ++ e :: l) (ht : e.time = some t)
      (hh : s.hand = some (lineText e)) (ha : s.alive = true)
      (hp : s.pos = (manifestOf (r ++ [e])).length) (hm : manifestOf (r ++ [e]) <+: s.disk.manifest)
      (ho : s.out = r.flatMap result)

theorem step_manifest (d : Disk) (o : Op) : d.manifest <+: (step d o).manifest := by
  cases o <;> simp [step]

theorem TInv.op {es : List Emission} {s : Tail} (h : TInv es s) (o : Op) : TInv es (s.step (.op o)) := by
  have hm' : s.disk.manifest <+: (s.step (.op o)).disk.manifest := step_manifest s.disk o
  cases h with
  | idle r l hes hh ha hp hm ho => exact .idle r l hes hh ha hp (hm.trans hm') ho
  | busy r l e t hes ht hh ha hp hm ho => exact .busy r l e t hes ht hh ha hp (hm.trans hm') ho

theorem TInv.readline {es l1 l2 : List Emission} {s : Tail} (h : TInv es s) (hg : ∀ e ∈ es, Good e.name)
    (hes : es = l1 ++ l2) (hm : s.disk.manifest = manifestOf l1) : TInv es (s.step .readline) := by
  cases h with
  | busy r l e t hes' ht hh ha hp hm' ho =>
    have : s.step .readline = s := by simp [Tail.step, ha, hh]
    rw [this]
    exact .busy r l e t hes' ht hh ha hp hm' ho
  | idle r l hes' hh ha hp hm' ho =>
    have hrest : ∃ x y, es = r ++ x ++ y ∧ s.disk.manifest.drop s.pos = manifestOf x ∧
        s.disk.manifest = manifestOf r ++ manifestOf x := by
      rcases split_cases (hes'.symm.trans hes) with ⟨x, h1, h2⟩ | ⟨x, h1, h2⟩
      · refine ⟨x, l2, by rw [hes', h2]; simp, ?_, ?_⟩
        · rw [hm, hp, h1, manifestOf_append, List.drop_left]
        · rw [hm, h1, manifestOf_append]
      · have hx : manifestOf x = [] := by
          rw [hm, h1, manifestOf_append] at hm'
          have := hm'.length_le
          rw [List.length_append] at this
          exact List.length_eq_zero_iff.mp (by omega)
        refine ⟨[], l, by rw [hes']; simp, ?_, ?_⟩
        · rw [hm, hp, h1, manifestOf_append, hx]
          simp [manifestOf]
        · rw [hm, h1, manifestOf_append, hx]; simp [manifestOf]
    obtain ⟨x, y, hxy, hdrop, hman⟩ := hrest
    by_cases hx : manifestOf x = []
    · have : s.step .readline = s := by simp [Tail.step, ha, hh, hdrop, hx, readLines]
      rw [this]
      exact .idle r l hes' hh ha hp hm' ho
    · obtain ⟨a, e, t, b, h1, h2, h3⟩ := manifestOf_first hx
      have hge : Good e.name := hg e (by rw [hxy, h1]; simp)
      have hx' : manifestOf x = lineText e ++ manifestOf b := by
        rw [h1, manifestOf_append, h2, List.nil_append]
        simp [manifestOf]
      have hrl : readLines (s.disk.manifest.drop s.pos) = lineText e :: readLines (manifestOf b) := by
        rw [hdrop, hx', readLines_lineText hge]
        simp [h3]
      have hst : s.step .readline = { s with pos := s.pos + (lineText e).length, hand := some (lineText e) } := by
        simp [Tail.step, ha, hh, hrl]
      have hra : manifestOf (r ++ a ++ [e]) = manifestOf r ++ lineText e := by
        rw [manifestOf_append, manifestOf_append, h2]
        simp [manifestOf]
      rw [hst]
      refine .busy (r ++ a) (b ++ y) e t (by rw [hxy, h1]; simp) h3 rfl ha ?_ ?_ ?_
      · simp only [hp, hra, List.length_append]
      · rw [hra]
        show _ <+: s.disk.manifest
        rw [hman, hx', ← List.append_assoc]
        exact List.prefix_append _ _
      · show s.out = _
        rw [ho, List.flatMap_append, manifestOf_nil_results h2, List.append_nil]

theorem TInv.fetch {es l1 l2 : List Emission} {m : Text} {s : Tail} (h : TInv es s) (hg : ∀ e ∈ es, Good e.name)
    (hes : es = l1 ++ l2) (hm : s.disk.manifest = manifestOf l1 ++ m) (hnl : '\n' ∉ m)
    (hf : ∀ x ∈ l1, s.disk.files x.name = some x.data) : TInv es (s.step .fetch) := by
  cases h with
  | idle r l hes' hh ha hp hm' ho =>
    have : s.step .fetch = s := by simp [Tail.step, ha, hh]
    rw [this]
    exact .idle r l hes' hh ha hp hm' ho
  | busy r l e t hes' ht hh ha hp hm' ho =>
    have he1 : e ∈ l1 := by
      have hsplit : (r ++ [e]) ++ l = l1 ++ l2 := by rw [← hes, hes']; simp
      rcases split_cases hsplit with ⟨x, h1, _⟩ | ⟨x, h1, _⟩
      · rw [h1]; simp
      · rcases List.eq_nil_or_concat x with hx | ⟨x', c, hx⟩
        · rw [hx, List.append_nil] at h1
          rw [← h1]; simp
        · exfalso
          rw [hx] at h1
          have h1' : r ++ [e] = (l1 ++ x') ++ [c] := by simpa using h1
          have hc := List.append_inj_right' h1' rfl
          have hr := List.append_inj_left' h1' rfl
          rw [hm, hr, manifestOf_append, manifestOf_append, List.append_assoc, List.prefix_append_right_inj] at hm'
          have : '\n' ∈ manifestOf x' ++ manifestOf [e] := by
            rw [List.mem_append]; right
            simp only [manifestOf, List.flatMap_cons, List.flatMap_nil, List.append_nil]
            exact lineText_newline ht
          exact hnl (hm'.subset this)
    have hge : Good e.name := hg e (by rw [hes']; simp)
    have hrl := readLine_lineOf s.disk.files t hge (hf e he1)
    have hlt : lineText e = lineOf t e.name := by simp [lineText, ht]
    have hst : s.step .fetch = { s with hand := none, out := s.out ++ result e } := by
      simp only [Tail.step, ha, hh, hlt, hrl]
      have : result e = (if e.data = [] then (none : Option (Int × Text)) else some (t / 1000 * 1000, e.data)).toList := by
        unfold result
        rw [ht]
        by_cases hd : e.data = [] <;> simp [hd]
      rw [this]
    rw [hst]
    refine .idle (r ++ [e]) l (by rw [hes']; simp) rfl ha hp hm' ?_
    show s.out ++ result e = _
    rw [ho]; simp

theorem completePart_eq_nil {l1 : List Emission} {m : Text} (hm : '\n' ∉ m)
    (h : completePart (manifestOf l1 ++ m) = manifestOf l1 ++ m) : m = [] := by
  rw [completePart_line _ _ hm (manifestOf_end l1)] at h
  have := congrArg List.length h
  rw [List.length_append] at this
  exact List.length_eq_zero_iff.mp (by omega)

theorem emissions_take : ∀ (os : List Out) (k n : Nat), emissions k (os.take n) = (emissions k os).take n := by
  intro os
  induction os with
  | nil => intro k n; simp [emissions]
  | cons o os ih =>
    intro k n
    cases n with
    | zero => simp [emissions]
    | succ n =>
      rw [List.take_succ_cons]
      unfold emissions
      cases o.num <;> simp [ih]

theorem TInv.handed {os : List Out} {s : Tail} (h : TInv (emissions 0 os) s) :
    s.alive = true ∧ ∃ os1 os2, os = os1 ++ os2 ∧ s.out = os1.flatMap handed := by
  have key : ∀ r l, emissions 0 os = r ++ l → ∃ os1 os2, os = os1 ++ os2 ∧ r.flatMap result = os1.flatMap Fs.handed := by
    intro r l he
    refine ⟨os.take r.length, os.drop r.length, (List.take_append_drop _ _).symm, ?_⟩
    rw [← result_eq _ 0, emissions_take, he, List.take_left]
  cases h with
  | idle r l hes hh ha hp hm ho => rw [ho]; exact ⟨ha, key r l hes⟩
  | busy r l e t hes ht hh ha hp hm ho => rw [ho]; exact ⟨ha, key r _ hes⟩

end Verif.Fs
