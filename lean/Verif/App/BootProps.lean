import Verif.App.Boot

/-!
# C94: an application with a filesystem input
-/
namespace Verif.App.Boot

variable {σ ι β : Type}

/-! ### Specification -/

/-- What the nodes emit when handed things one after the other. -/
def emitted (m : Nodes σ ι β) : σ → List ι → List (Emit β)
  | _, [] => []
  | n, x :: xs => (m n x).2 ++ emitted m (m n x).1 xs

/-- Of it, what is for filesystem outputs. -/
def toFiles (es : List (Emit β)) : List (Nat × β) :=
  es.filterMap (fun e => match e.sink with | .file k => some (k, e.data) | .ws _ => none)

/-- What the manifests of the filesystem inputs list, in the order of the components. -/
def listed (cs : List (Comp ι)) : List ι := cs.flatMap (fun | .fsIn docs _ => docs | _ => [])

def NoTail (cs : List (Comp ι)) : Prop := ∀ docs, Comp.fsIn docs true ∉ cs

/-- The websocket outputs among components. -/
def outputs (cs : List (Comp ι)) : List Nat := cs.filterMap (fun | .wsOut k => some k | _ => none)

/-- Nothing arrives from other inputs and no timer calls a node. -/
def FilesOnly (evs : List (Ev ι)) : Prop := ∀ x, Ev.input x ∉ evs

/-! ### Lemmas -/

def finalNodes (m : Nodes σ ι β) : σ → List ι → σ
  | n, [] => n
  | n, x :: xs => finalNodes m (m n x).1 xs

theorem emitOne_nodes (s : St σ β) (e : Emit β) : (emitOne s e).nodes = s.nodes ∧ (emitOne s e).conns = s.conns ∧
    (emitOne s e).started = s.started ∧ (emitOne s e).running = s.running ∧ (emitOne s e).stuck = s.stuck ∧
    (emitOne s e).written = s.written ++ toFiles [e] := by
  unfold emitOne toFiles send
  cases h : e.sink with
  | file k => simp [h]
  | ws k =>
    simp only [h, List.filterMap_cons, List.filterMap_nil, List.append_nil]
    split
    · split <;> simp
    · simp

theorem emitOne_received (s : St σ β) (e : Emit β) (h : s.conns = []) : (emitOne s e).received = s.received := by
  unfold emitOne send
  cases e.sink with
  | file k => rfl
  | ws k =>
    simp only
    split
    · split
      · rfl
      · simp [h]
    · rfl

theorem emitOne_later (s : St σ β) (e : Emit β) (h : e.delayed = false) : (emitOne s e).later = s.later := by
  unfold emitOne send
  cases e.sink with
  | file k => rfl
  | ws k =>
    simp only [h]
    split <;> simp

theorem emitAll (es : List (Emit β)) : ∀ s : St σ β, (es.foldl emitOne s).nodes = s.nodes ∧ (es.foldl emitOne s).conns = s.conns ∧
    (es.foldl emitOne s).started = s.started ∧ (es.foldl emitOne s).running = s.running ∧ (es.foldl emitOne s).stuck = s.stuck ∧
    (es.foldl emitOne s).written = s.written ++ toFiles es ∧
    (s.conns = [] → (es.foldl emitOne s).received = s.received) ∧
    ((∀ e ∈ es, e.delayed = false) → (es.foldl emitOne s).later = s.later) := by
  induction es with
  | nil => intro s; simp [toFiles]
  | cons e es ih =>
    intro s
    obtain ⟨a1, a2, a3, a4, a5, a6⟩ := emitOne_nodes s e
    obtain ⟨b1, b2, b3, b4, b5, b6, b7, b8⟩ := ih (emitOne s e)
    rw [List.foldl_cons]
    refine ⟨b1.trans a1, b2.trans a2, b3.trans a3, b4.trans a4, b5.trans a5, ?_, ?_, ?_⟩
    · rw [b6, a6, List.append_assoc]
      unfold toFiles
      rw [← List.filterMap_append]
      rfl
    · intro h
      rw [b7 (a2.trans h), emitOne_received s e h]
    · intro h
      rw [b8 (fun x hx => h x (List.mem_cons_of_mem _ hx)), emitOne_later s e (h e List.mem_cons_self)]

theorem feedAll (m : Nodes σ ι β) : ∀ (xs : List ι) (s : St σ β),
    (xs.foldl (feed m) s).nodes = finalNodes m s.nodes xs ∧ (xs.foldl (feed m) s).conns = s.conns ∧
    (xs.foldl (feed m) s).started = s.started ∧ (xs.foldl (feed m) s).running = s.running ∧
    (xs.foldl (feed m) s).stuck = s.stuck ∧
    (xs.foldl (feed m) s).written = s.written ++ toFiles (emitted m s.nodes xs) ∧
    (s.conns = [] → (xs.foldl (feed m) s).received = s.received) ∧
    ((∀ e ∈ emitted m s.nodes xs, e.delayed = false) → (xs.foldl (feed m) s).later = s.later) := by
  intro xs
  induction xs with
  | nil => intro s; simp [toFiles, emitted, finalNodes]
  | cons x xs ih =>
    intro s
    obtain ⟨a1, a2, a3, a4, a5, a6, a7, a8⟩ := emitAll (m s.nodes x).2 { s with nodes := (m s.nodes x).1 }
    obtain ⟨b1, b2, b3, b4, b5, b6, b7, b8⟩ := ih (feed m s x)
    rw [List.foldl_cons]
    have hn : (feed m s x).nodes = (m s.nodes x).1 := a1
    refine ⟨?_, b2.trans a2, b3.trans a3, b4.trans a4, b5.trans a5, ?_, ?_, ?_⟩
    · rw [b1, hn]; rfl
    · rw [b6, hn]
      have : (feed m s x).written = s.written ++ toFiles (m s.nodes x).2 := a6
      rw [this, List.append_assoc, emitted]
      unfold toFiles
      rw [← List.filterMap_append]
    · intro h
      rw [b7 (a2.trans h)]
      exact a7 h
    · intro h
      rw [emitted] at h
      rw [b8 (by rw [hn]; exact fun e he => h e (List.mem_append_right _ he))]
      exact a8 (fun e he => h e (List.mem_append_left _ he))

theorem emitted_append (m : Nodes σ ι β) : ∀ (xs ys : List ι) (n : σ),
    emitted m n (xs ++ ys) = emitted m n xs ++ emitted m (finalNodes m n xs) ys := by
  intro xs
  induction xs with
  | nil => intro ys n; rfl
  | cons x xs ih =>
    intro ys n
    rw [List.cons_append, emitted, ih, emitted, finalNodes, List.append_assoc]

theorem toFiles_append (a b : List (Emit β)) : toFiles (a ++ b) = toFiles a ++ toFiles b := by
  unfold toFiles; rw [List.filterMap_append]

/-- Starting without a tailing input. -/
theorem boot_noTail (m : Nodes σ ι β) : ∀ (cs : List (Comp ι)) (s : St σ β), NoTail cs → s.conns = [] →
    (boot m s cs).conns = [] ∧ (boot m s cs).received = s.received ∧ (boot m s cs).running = true ∧
    (boot m s cs).stuck = s.stuck ∧ (boot m s cs).started = s.started ++ outputs cs ∧
    (boot m s cs).written = s.written ++ toFiles (emitted m s.nodes (listed cs)) ∧
    ((∀ e ∈ emitted m s.nodes (listed cs), e.delayed = false) → (boot m s cs).later = s.later) := by
  intro cs
  induction cs with
  | nil => intro s _ hc; simp [boot, hc, listed, emitted, toFiles, outputs]
  | cons c cs ih =>
    intro s hnt hc
    have hnt' : NoTail cs := fun docs h => hnt docs (List.mem_cons_of_mem _ h)
    cases c with
    | wsOut k =>
      have := ih { s with started := s.started ++ [k] } hnt' hc
      have hl : listed (.wsOut k :: cs) = listed cs := by simp [listed]
      have ho : outputs (.wsOut k :: cs) = k :: outputs cs := by simp [outputs]
      rw [hl, ho]
      simpa [boot] using this
    | other =>
      have := ih s hnt' hc
      have hl : listed (.other :: cs) = listed cs := by simp [listed]
      have ho : outputs (.other :: cs) = outputs cs := by simp [outputs]
      rw [hl, ho]
      simpa [boot] using this
    | fsIn docs tail =>
      cases tail with
      | true => exact absurd List.mem_cons_self (hnt docs)
      | false =>
        obtain ⟨a1, a2, a3, a4, a5, a6, a7, a8⟩ := feedAll m docs s
        obtain ⟨b1, b2, b3, b4, b5, b6, b7⟩ := ih (docs.foldl (feed m) s) hnt' (a2.trans hc)
        have hl : listed (.fsIn docs false :: cs) = docs ++ listed cs := by simp [listed]
        have ho : outputs (.fsIn docs false :: cs) = outputs cs := by simp [outputs]
        have hb : boot m s (.fsIn docs false :: cs) = boot m (docs.foldl (feed m) s) cs := by simp [boot]
        rw [hb, hl, ho, emitted_append]
        refine ⟨b1, b2.trans (a7 hc), b3, b4.trans a5, by rw [b5, a3], ?_, ?_⟩
        · rw [b6, a6, a1, toFiles_append, List.append_assoc]
        · intro h
          rw [b7 (by rw [a1]; exact fun e he => h e (List.mem_append_right _ he))]
          exact a8 (fun e he => h e (List.mem_append_left _ he))

/-- Starting up to a tailing input. -/
theorem boot_tail (m : Nodes σ ι β) (docs : List ι) (b : List (Comp ι)) : ∀ (a : List (Comp ι)) (s : St σ β), NoTail a → s.conns = [] →
    s.running = false →
    (boot m s (a ++ .fsIn docs true :: b)).conns = [] ∧ (boot m s (a ++ .fsIn docs true :: b)).received = s.received ∧
    (boot m s (a ++ .fsIn docs true :: b)).running = false ∧
    (boot m s (a ++ .fsIn docs true :: b)).stuck = true ∧ (boot m s (a ++ .fsIn docs true :: b)).started = s.started ++ outputs a ∧
    (boot m s (a ++ .fsIn docs true :: b)).nodes = finalNodes m s.nodes (listed a ++ docs) ∧
    (boot m s (a ++ .fsIn docs true :: b)).written = s.written ++ toFiles (emitted m s.nodes (listed a ++ docs)) := by
  intro a
  induction a with
  | nil =>
    intro s _ hc hr
    obtain ⟨a1, a2, a3, a4, a5, a6, a7, a8⟩ := feedAll m docs s
    simp [boot, listed, outputs, a1, a2, a3, a4, a6, a7 hc, hc, hr]
  | cons c cs ih =>
    intro s hnt hc hr
    have hnt' : NoTail cs := fun docs h => hnt docs (List.mem_cons_of_mem _ h)
    cases c with
    | wsOut k =>
      have := ih { s with started := s.started ++ [k] } hnt' hc hr
      have hl : listed (.wsOut k :: cs) = listed cs := by simp [listed]
      have ho : outputs (.wsOut k :: cs) = k :: outputs cs := by simp [outputs]
      rw [hl, ho]
      simpa [boot] using this
    | other =>
      have := ih s hnt' hc hr
      have hl : listed (.other :: cs) = listed cs := by simp [listed]
      have ho : outputs (.other :: cs) = outputs cs := by simp [outputs]
      rw [hl, ho]
      simpa [boot] using this
    | fsIn docs' tail =>
      cases tail with
      | true => exact absurd List.mem_cons_self (hnt docs')
      | false =>
        obtain ⟨a1, a2, a3, a4, a5, a6, a7, a8⟩ := feedAll m docs' s
        obtain ⟨b1, b2, b3, b4, b5, b6, b7⟩ := ih (docs'.foldl (feed m) s) hnt' (a2.trans hc) (a4.trans hr)
        have hl : listed (.fsIn docs' false :: cs) = docs' ++ listed cs := by simp [listed]
        have ho : outputs (.fsIn docs' false :: cs) = outputs cs := by simp [outputs]
        have hb : boot m s (.fsIn docs' false :: cs ++ .fsIn docs true :: b)
            = boot m (docs'.foldl (feed m) s) (cs ++ .fsIn docs true :: b) := by simp [boot]
        have hfin : ∀ (xs ys : List ι) (n : σ), finalNodes m n (xs ++ ys) = finalNodes m (finalNodes m n xs) ys := by
          intro xs
          induction xs with
          | nil => intro ys n; rfl
          | cons x xs ih => intro ys n; rw [List.cons_append, finalNodes, ih, finalNodes]
        rw [hb, hl, ho]
        refine ⟨b1, b2.trans (a7 hc), b3, b4, by rw [b5, a3], ?_, ?_⟩
        · rw [b6, a1, List.append_assoc, ← hfin]
        · rw [b7, a6, a1, List.append_assoc docs', emitted_append m docs' _, toFiles_append, List.append_assoc]

/-! ### Theorems -/

/-- **Filesystem outputs get everything, whatever the order.**  Without a tailing input, everything the nodes emit to filesystem outputs for the documents that the manifests
list has been written once the reactor runs, before anything else, and stays written.  The components can be started in any order; the documents of several
filesystem inputs come one input after the other. -/
theorem C94_files (m : Nodes σ ι β) (n0 : σ) (cs : List (Comp ι)) (hnt : NoTail cs) :
    (runApp m n0 cs []).running = true ∧
    ∀ evs, toFiles (emitted m n0 (listed cs)) <+: (runApp m n0 cs evs).written := by
  obtain ⟨_, _, hr, _, _, hw, _⟩ := boot_noTail m cs { nodes := n0 } hnt rfl
  refine ⟨hr, fun evs => ?_⟩
  have step_mono : ∀ (s : St σ β) (e : Ev ι), s.written <+: (evStep m s e).written := by
    intro s e
    have hf : ∀ x, s.written <+: (feed m s x).written := by
      intro x
      have := (feedAll m [x] s).2.2.2.2.2.1
      simp only [List.foldl_cons, List.foldl_nil] at this
      rw [this]
      exact List.prefix_append _ _
    cases e with
    | connect c k => simp only [evStep]; split <;> exact List.prefix_refl _
    | disconnect c k => simp only [evStep]; split <;> exact List.prefix_refl _
    | input x =>
      simp only [evStep]
      split
      · exact hf x
      · exact List.prefix_refl _
    | fire i =>
      simp only [evStep]
      split
      · split <;> exact List.prefix_refl _
      · exact List.prefix_refl _
    | line x =>
      simp only [evStep]
      split
      · exact hf x
      · exact List.prefix_refl _
  have run_mono : ∀ (evs : List (Ev ι)) (s : St σ β), s.written <+: (evs.foldl (evStep m) s).written := by
    intro evs
    induction evs with
    | nil => exact fun s => List.prefix_refl _
    | cons e es ih => exact fun s => (step_mono s e).trans (ih _)
  have := run_mono evs (boot m { nodes := n0 } cs)
  rw [hw] at this
  exact this

/-- With one filesystem input the order of the components makes no difference to the files. -/
theorem C94_files_any_order (m : Nodes σ ι β) (n0 : σ) (docs : List ι) (cs : List (Comp ι)) (hnt : NoTail cs)
    (hone : cs.filterMap (fun | .fsIn docs _ => some docs | _ => none) = [docs]) :
    (runApp m n0 cs []).written = toFiles (emitted m n0 docs) := by
  obtain ⟨_, _, _, _, _, hw, _⟩ := boot_noTail m cs { nodes := n0 } hnt rfl
  have hl : listed cs = docs := by
    have : ∀ cs : List (Comp ι), listed cs = (cs.filterMap (fun | .fsIn docs _ => some docs | _ => none)).flatten := by
      intro cs
      induction cs with
      | nil => rfl
      | cons c cs ih =>
        cases c with
        | fsIn d t =>
          show d ++ listed cs = _
          rw [ih]; rfl
        | wsOut k => show listed cs = _; rw [ih]; rfl
        | other => show listed cs = _; rw [ih]; rfl
    rw [this, hone]
    simp
  rw [hl] at hw
  simpa [runApp] using hw

/-- **Websocket outputs get nothing.**  Nothing that the nodes emit without delay to a websocket output for a document of a filesystem input ever reaches anybody, in whatever
order the components are started and whoever connects: all of it is emitted before the first connection can be made. -/
theorem C94_websocket_gets_nothing (m : Nodes σ ι β) (n0 : σ) (cs : List (Comp ι)) (hnt : NoTail cs)
    (hnow : ∀ e ∈ emitted m n0 (listed cs), e.delayed = false) (evs : List (Ev ι)) (hev : FilesOnly evs) :
    (runApp m n0 cs evs).received = [] := by
  obtain ⟨_, hrec, _, hst, _, _, hl⟩ := boot_noTail m cs { nodes := n0 } hnt rfl
  have key : ∀ (evs : List (Ev ι)) (s : St σ β), FilesOnly evs → s.later = [] → s.stuck = false →
      (evs.foldl (evStep m) s).received = s.received := by
    intro evs
    induction evs with
    | nil => intros; rfl
    | cons e es ih =>
      intro s hev hl hst
      have hev' : FilesOnly es := fun x h => hev x (List.mem_cons_of_mem _ h)
      have h1 : (evStep m s e).later = [] ∧ (evStep m s e).stuck = false ∧ (evStep m s e).received = s.received := by
        cases e with
        | connect c k => simp only [evStep]; split <;> exact ⟨hl, hst, rfl⟩
        | disconnect c k => simp only [evStep]; split <;> exact ⟨hl, hst, rfl⟩
        | input x => exact absurd List.mem_cons_self (hev x)
        | fire i => simp [evStep, hl, hst]
        | line x => simp [evStep, hl, hst]
      rw [List.foldl_cons, ih _ hev' h1.1 h1.2.1, h1.2.2]
  unfold runApp
  rw [key evs _ hev (hl hnow) hst, hrec]

/-- What is sent at once to whom when the nodes emit `es`: everything emitted without delay to a websocket output goes to the clients connected to this output. -/
def sentNow (conns : List (Nat × Nat)) (started : List Nat) (es : List (Emit β)) : List (Nat × β) :=
  es.flatMap (fun e => match e.sink with
    | .ws k => if e.delayed = false ∧ k ∈ started then (conns.filter (fun c => c.2 = k)).map (fun c => (c.1, e.data)) else []
    | .file _ => [])

theorem emitAll_sent (es : List (Emit β)) : ∀ s : St σ β,
    (es.foldl emitOne s).received = s.received ++ sentNow s.conns s.started es := by
  induction es with
  | nil => intro s; simp [sentNow]
  | cons e es ih =>
    intro s
    obtain ⟨-, a2, a3, -⟩ := emitOne_nodes s e
    rw [List.foldl_cons, ih, a2, a3]
    have : (emitOne s e).received = s.received ++ sentNow s.conns s.started [e] := by
      unfold emitOne send sentNow
      cases hs : e.sink with
      | file k => simp [hs]
      | ws k =>
        simp only [hs, List.flatMap_cons, List.flatMap_nil, List.append_nil]
        by_cases hk : k ∈ s.started
        · cases e.delayed <;> simp [hk]
        · simp [hk]
    rw [this, List.append_assoc]
    simp [sentNow]

/-- **Connected clients get what is emitted later.**  Once the reactor runs, a document from another input, or a timer call, makes the nodes emit to exactly the clients
connected to each websocket output, in the order of emission; a delayed emission goes, when its time has come, to those connected to its output by then. -/
theorem C94_clients (m : Nodes σ ι β) (n0 : σ) (cs : List (Comp ι)) (hnt : NoTail cs) (evs : List (Ev ι)) :
    let s := runApp m n0 cs evs
    (∀ x, (runApp m n0 cs (evs ++ [.input x])).received = s.received ++ sentNow s.conns (outputs cs) (m s.nodes x).2) ∧
    (∀ i k d, s.later[i]? = some (k, d) → (runApp m n0 cs (evs ++ [.fire i])).received
      = s.received ++ (s.conns.filter (fun c => c.2 = k)).map (fun c => (c.1, d))) := by
  obtain ⟨_, _, hr, _, hst, _, _⟩ := boot_noTail m cs { nodes := n0 } hnt rfl
  have hfeed : ∀ (s : St σ β) x, (feed m s x).running = s.running ∧ (feed m s x).started = s.started := by
    intro s x
    have := feedAll m [x] s
    exact ⟨this.2.2.2.1, this.2.2.1⟩
  have key : ∀ (evs : List (Ev ι)) (s : St σ β), s.running = true →
      (evs.foldl (evStep m) s).running = true ∧ (evs.foldl (evStep m) s).started = s.started := by
    intro evs
    induction evs with
    | nil => intro s h; exact ⟨h, rfl⟩
    | cons e es ih =>
      intro s h
      have h1 : (evStep m s e).running = true ∧ (evStep m s e).started = s.started := by
        cases e with
        | connect c k => simp only [evStep]; split <;> exact ⟨h, rfl⟩
        | disconnect c k => simp only [evStep]; split <;> exact ⟨h, rfl⟩
        | input x =>
          simp only [evStep, h, if_true]
          exact ⟨(hfeed s x).1.trans h, (hfeed s x).2⟩
        | fire i =>
          simp only [evStep]
          rw [if_pos h]
          split <;> exact ⟨h, rfl⟩
        | line x =>
          simp only [evStep]
          split
          · exact ⟨(hfeed s x).1.trans h, (hfeed s x).2⟩
          · exact ⟨h, rfl⟩
      obtain ⟨h2, h3⟩ := ih _ h1.1
      exact ⟨h2, h3.trans h1.2⟩
  obtain ⟨k1, k2⟩ := key evs _ hr
  have hs : (runApp m n0 cs evs).started = outputs cs := by
    rw [show (runApp m n0 cs evs).started = _ from k2, hst]; rfl
  have hrun : (runApp m n0 cs evs).running = true := k1
  refine ⟨?_, ?_⟩
  · intro x
    have : runApp m n0 cs (evs ++ [.input x]) = feed m (runApp m n0 cs evs) x := by
      unfold runApp at hrun ⊢
      rw [List.foldl_append]
      simp only [List.foldl_cons, List.foldl_nil, evStep, hrun, if_true]
    rw [this, ← hs]
    exact emitAll_sent _ _
  · intro i k d hl
    have : runApp m n0 cs (evs ++ [.fire i])
        = send { (runApp m n0 cs evs) with later := (runApp m n0 cs evs).later.eraseIdx i } k d := by
      unfold runApp at hrun hl ⊢
      rw [List.foldl_append]
      simp only [List.foldl_cons, List.foldl_nil, evStep, hrun, if_true, hl]
    rw [this]
    rfl

/-- **A tailing input stops everything else.**  What comes after it in the order is never started, the reactor never runs, so that nothing is ever received, sent or called by
a timer.  What the nodes emit to filesystem outputs for its documents is written, for those appended later as well. -/
theorem C94_tail (m : Nodes σ ι β) (n0 : σ) (a b : List (Comp ι)) (docs : List ι) (hnt : NoTail a) (evs : List (Ev ι)) :
    let s := runApp m n0 (a ++ .fsIn docs true :: b) evs
    s.running = false ∧ s.started = outputs a ∧ s.conns = [] ∧ s.received = [] ∧
    s.written = toFiles (emitted m n0 (listed a ++ docs ++ evs.filterMap (fun | .line x => some x | _ => none))) := by
  obtain ⟨h1, h2, h3, h4, h5, h6, h7⟩ := boot_tail m docs b a { nodes := n0 } hnt rfl rfl
  have key : ∀ (evs : List (Ev ι)) (s : St σ β), s.running = false → s.stuck = true → s.conns = [] →
      (evs.foldl (evStep m) s).running = false ∧ (evs.foldl (evStep m) s).started = s.started ∧
      (evs.foldl (evStep m) s).conns = [] ∧ (evs.foldl (evStep m) s).received = s.received ∧
      (evs.foldl (evStep m) s).written
        = s.written ++ toFiles (emitted m s.nodes (evs.filterMap (fun | .line x => some x | _ => none))) := by
    intro evs
    induction evs with
    | nil => intro s hr hs hc; simp [hr, hc, emitted, toFiles]
    | cons e es ih =>
      intro s hr hs hc
      cases e with
      | line x =>
        obtain ⟨a1, a2, a3, a4, a5, a6, a7, a8⟩ := feedAll m [x] s
        have hst : evStep m s (.line x) = [x].foldl (feed m) s := by simp [evStep, hs]
        obtain ⟨b1, b2, b3, b4, b5⟩ := ih ([x].foldl (feed m) s) (a4.trans hr) (a5.trans hs) (a2.trans hc)
        rw [List.foldl_cons, hst]
        refine ⟨b1, b2.trans a3, b3, b4.trans (a7 hc), ?_⟩
        rw [b5, a6, a1, List.append_assoc, ← toFiles_append, ← emitted_append]
        rfl
      | connect c k =>
        have hst : evStep m s (.connect c k) = s := by simp [evStep, hr]
        rw [List.foldl_cons, hst]; exact ih s hr hs hc
      | disconnect c k =>
        have hst : evStep m s (.disconnect c k) = s := by simp [evStep, hr]
        rw [List.foldl_cons, hst]; exact ih s hr hs hc
      | input x =>
        have hst : evStep m s (.input x) = s := by simp [evStep, hr]
        rw [List.foldl_cons, hst]; exact ih s hr hs hc
      | fire i =>
        have hst : evStep m s (.fire i) = s := by simp [evStep, hr]
        rw [List.foldl_cons, hst]; exact ih s hr hs hc
  obtain ⟨k1, k2, k3, k4, k5⟩ := key evs _ h3 h4 h1
  refine ⟨k1, ?_, k3, k4.trans h2, ?_⟩
  · rw [show (runApp m n0 (a ++ .fsIn docs true :: b) evs).started = _ from k2, h5]; rfl
  · rw [show (runApp m n0 (a ++ .fsIn docs true :: b) evs).written = _ from k5, h7, h6,
      emitted_append m (listed a ++ docs), toFiles_append]
    rfl

/-! ### Examples -/

/-- Nodes that number the documents they are handed and emit them to a file, to a websocket output, and to it with a delay if the document says so. -/
def exNodes : Nodes Nat (String × Bool) (Nat × String) :=
  fun n x => (n + 1, [⟨.file 0, (n, x.1), x.2⟩, ⟨.ws 7, (n, x.1), x.2⟩])

def exComps : List (Comp (String × Bool)) := [.other, .fsIn [("a", false), ("b", false)] false, .wsOut 7]

example : NoTail exComps ∧ (∀ e ∈ emitted exNodes 1 (listed exComps), e.delayed = false) ∧
    (runApp exNodes 1 exComps []).written = [(0, (1, "a")), (0, (2, "b"))] := by
  refine ⟨?_, by decide, by decide⟩
  intro docs h
  simp [exComps] at h

/-- What comes later from another input is sent to whoever is connected by then. -/
example : (runApp exNodes 1 exComps [.connect 3 7, .input ("c", false)]).received = [(3, (3, "c"))] := by decide

/-- Two outputs with a client each: only the one the nodes emit to sends. -/
example : (runApp exNodes 1 [.wsOut 7, .wsOut 8] [.connect 3 7, .connect 4 8, .input ("c", false)]).received = [(3, (1, "c"))] := by
  decide

/-- **False for websocket outputs**: a client connected from the first moment on gets none of the documents. -/
theorem C94_false_websocket : ∃ (cs : List (Comp (String × Bool))) (evs : List (Ev (String × Bool))),
    NoTail cs ∧ Ev.connect 3 7 ∈ evs ∧ emitted exNodes 1 (listed cs) ≠ [] ∧
    (runApp exNodes 1 cs evs).conns = [(3, 7)] ∧ (runApp exNodes 1 cs evs).received = [] := by
  refine ⟨exComps, [.connect 3 7], ?_, by simp, by decide, by decide, by decide⟩
  intro docs h
  simp [exComps] at h

/-- With a delay it depends on the order, which is that of a set: what is emitted before the output has been started is dropped. -/
theorem C94_false_order :
    let docs := [("a", true), ("b", true)]
    let evs : List (Ev (String × Bool)) := [.connect 3 7, .fire 0, .fire 0]
    (runApp exNodes 1 [.wsOut 7, .fsIn docs false] evs).received = [(3, (1, "a")), (3, (2, "b"))] ∧
    (runApp exNodes 1 [.fsIn docs false, .wsOut 7] evs).received = [] := by
  decide

/-- A tailing input before the output, and another filesystem input that is never read. -/
example : let evs : List (Ev (String × Bool)) := [.connect 3 7, .line ("b", false), .input ("c", false)]
    let s := runApp exNodes 1 ([.other] ++ .fsIn [("a", false)] true :: [.fsIn [("z", false)] false, .wsOut 7]) evs
    s.written = [(0, (1, "a")), (0, (2, "b"))] ∧ s.started = [] ∧ s.received = [] := by
  decide

end Verif.App.Boot
