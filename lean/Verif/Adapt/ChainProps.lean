import Verif.Adapt.TravelProps

/-!
# Chains of nodes in one process: stale texts (C62) and clashing keyword arguments (C63)
-/
namespace Verif.Adapt

theorem runChain_append (X : Codec) (a b : List Stage) (x : Data) (kw : Kw) :
    runChain X (a ++ b) x kw =
      (match runChain X a x kw with
       | .error e => .error e
       | .ok none => .ok none
       | .ok (some (y, kw')) => runChain X b y kw') := by
  induction a generalizing x kw with
  | nil => rfl
  | cons s ss ih =>
    simp only [List.cons_append, runChain]
    cases s.run X x kw with
    | error e => rfl
    | ok r =>
      cases r with
      | none => rfl
      | some p => simp only [ih]

/-! ### C62: what a distributing node sends -/

/-- Along the chain, no node changes a document that still carries the text it was read from.  `raw` says
whether it does at the start. -/
def staleFree : Bool → List Stage → Bool
  | _, [] => true
  | _, .adapter .xmlTo3 :: l => staleFree true l
  | raw, .adapter .xmlToD :: l => staleFree raw l
  | raw, .adapter .dToXml :: l => staleFree raw l
  | raw, .adapter .threeToXml :: l => staleFree raw l
  | raw, .adapter .threeToD :: l => staleFree raw l
  | raw, .retime _ :: l => !raw && staleFree raw l
  | raw, .handover _ _ :: l => !raw && staleFree raw l
  | raw, .dedup _ :: l => !raw && staleFree raw l
  | _, .distribute :: l => staleFree false l
  | raw, .buffer _ :: l => staleFree raw l
  | raw, .encode :: l => staleFree raw l

/-- What `staleFree` keeps true of the data and the keyword arguments. -/
def Fresh (X : Codec) (raw : Bool) (x : Data) (kw : Kw) : Prop :=
  (raw = false → kw .rawXml = none) ∧
  ∀ d s, x = .doc d → kw .rawXml = some (.str s) → X.read s = some (.inl d.bind)

theorem Fresh.none {X : Codec} {raw : Bool} {x : Data} {kw : Kw} (h : kw .rawXml = none) : Fresh X raw x kw :=
  ⟨fun _ => h, fun _ _ _ h' => by rw [h] at h'; cases h'⟩

theorem Fresh.other {X : Codec} {raw : Bool} {x : Data} {kw : Kw} (h : raw = false → kw .rawXml = .none)
    (hx : ∀ d, x ≠ .doc d) : Fresh X raw x kw := ⟨h, fun d _ h' => absurd h' (hx d)⟩

theorem passOn_some {d : Doc3} {kw : Kw} {r : Option Bind} {y : Data} {kw' : Kw}
    (h : passOn d kw r = some (y, kw')) : ∃ b, r = some b ∧ y = .doc ⟨b, d.avail⟩ ∧ kw' = kw := by
  cases r with
  | none => cases h
  | some b =>
    simp only [passOn, Option.some.injEq, Prod.mk.injEq] at h
    exact ⟨b, rfl, h.1.symm, h.2.symm⟩

theorem fresh_chain (X : Codec) : ∀ (l : List Stage) (raw : Bool) (x : Data) (kw : Kw) (y : Data) (kw' : Kw),
    staleFree raw l = true → Fresh X raw x kw → runChain X l x kw = .ok (some (y, kw')) →
      ∃ raw', Fresh X raw' y kw' := by
  intro l
  induction l with
  | nil =>
    intro raw x kw y kw' _ hf hr
    simp only [runChain, Except.ok.injEq, Option.some.injEq, Prod.mk.injEq] at hr
    obtain ⟨rfl, rfl⟩ := hr
    exact ⟨raw, hf⟩
  | cons s ss ih =>
    intro raw x kw y kw' hs hf hr
    simp only [runChain] at hr
    cases hrun : s.run X x kw with
    | error e => rw [hrun] at hr; cases hr
    | ok r =>
      rw [hrun] at hr
      cases r with
      | none => cases hr
      | some p =>
        obtain ⟨z, kz⟩ := p
        simp only at hr
        -- one step keeps `Fresh`
        cases s with
        | adapter a =>
          simp only [Stage.run] at hrun
          cases hc : a.convert X x kw with
          | error e => rw [hc] at hrun; cases hrun
          | ok q =>
            rw [hc] at hrun
            simp only [Except.map, Except.ok.injEq, Option.some.injEq] at hrun
            rw [hrun] at hc
            cases a with
            | xmlTo3 =>
              refine ih true z kz y kw' hs ?_ hr
              cases x with
              | text t =>
                simp only [Adapter.convert] at hc
                split at hc
                · cases hc
                · rename_i b hb
                  split at hc
                  · split at hc
                    · simp only [Except.ok.injEq, Prod.mk.injEq] at hc
                      obtain ⟨rfl, rfl⟩ := hc
                      refine ⟨fun h => (by cases h), ?_⟩
                      intro d s hd hk
                      simp only [Kw.set_self, Option.some.injEq, Val.str.injEq] at hk
                      subst hk
                      injection hd with hd
                      subst hd
                      exact hb
                    · cases hc
                  · cases hc
                · split at hc
                  · simp only [Except.ok.injEq, Prod.mk.injEq] at hc
                    obtain ⟨rfl, rfl⟩ := hc
                    exact ⟨fun h => (by cases h), fun d s hd => (by cases hd)⟩
                  · cases hc
              | doc d => cases hc
              | msg m => cases hc
              | ttd b => cases hc
            | xmlToD =>
              refine ih raw z kz y kw' hs ?_ hr
              cases x with
              | text t =>
                simp only [Adapter.convert] at hc
                split at hc
                · cases hc
                · simp only [Except.ok.injEq, Prod.mk.injEq] at hc
                  obtain ⟨rfl, rfl⟩ := hc
                  exact .other hf.1 (fun d h => by cases h)
              | doc d => cases hc
              | msg m => cases hc
              | ttd b => cases hc
            | dToXml =>
              refine ih raw z kz y kw' hs ?_ hr
              simp only [Adapter.convert] at hc
              cases hg : getXml X x with
              | error e => rw [hg] at hc; cases hc
              | ok t =>
                rw [hg] at hc
                simp only [Except.map, Except.ok.injEq, Prod.mk.injEq] at hc
                obtain ⟨rfl, rfl⟩ := hc
                exact .other hf.1 (fun d h => by cases h)
            | threeToXml =>
              refine ih raw z kz y kw' hs ?_ hr
              cases x with
              | text t => cases hc
              | doc d =>
                simp only [Adapter.convert, Except.ok.injEq, Prod.mk.injEq] at hc
                obtain ⟨rfl, rfl⟩ := hc
                exact .other (fun h => by simpa [Kw.set] using hf.1 h) (fun d h => by cases h)
              | msg m =>
                simp only [Adapter.convert, Except.ok.injEq, Prod.mk.injEq] at hc
                obtain ⟨rfl, rfl⟩ := hc
                exact .other (fun h => by simpa [Kw.set] using hf.1 h) (fun d h => by cases h)
              | ttd b => cases hc
            | threeToD =>
              refine ih raw z kz y kw' hs ?_ hr
              simp only [Adapter.convert, Except.ok.injEq, Prod.mk.injEq] at hc
              obtain ⟨rfl, rfl⟩ := hc
              exact .other hf.1 (fun d h => by cases h)
        | retime f =>
          simp only [staleFree, Bool.and_eq_true, Bool.not_eq_true'] at hs
          refine ih raw z kz y kw' hs.2 ?_ hr
          have hk : kz = kw := by
            cases x with
            | doc d => simp only [Stage.run, Except.ok.injEq] at hrun; obtain ⟨_, _, _, h⟩ := passOn_some hrun; exact h
            | text t => simp only [Stage.run, Except.ok.injEq, Option.some.injEq, Prod.mk.injEq] at hrun; exact hrun.2.symm
            | msg m => simp only [Stage.run, Except.ok.injEq, Option.some.injEq, Prod.mk.injEq] at hrun; exact hrun.2.symm
            | ttd b => cases hrun
          rw [hk]
          exact .none (hf.1 hs.1)
        | handover q f =>
          simp only [staleFree, Bool.and_eq_true, Bool.not_eq_true'] at hs
          refine ih raw z kz y kw' hs.2 ?_ hr
          have hk : kz = kw := by
            cases x with
            | doc d => simp only [Stage.run, Except.ok.injEq] at hrun; obtain ⟨_, _, _, h⟩ := passOn_some hrun; exact h
            | msg m => simp only [Stage.run, Except.ok.injEq, Option.some.injEq, Prod.mk.injEq] at hrun; exact hrun.2.symm
            | text t => cases hrun
            | ttd b => cases hrun
          rw [hk]
          exact .none (hf.1 hs.1)
        | dedup f =>
          simp only [staleFree, Bool.and_eq_true, Bool.not_eq_true'] at hs
          refine ih raw z kz y kw' hs.2 ?_ hr
          have hk : kz = kw := by
            cases x with
            | doc d => simp only [Stage.run, Except.ok.injEq] at hrun; obtain ⟨_, _, _, h⟩ := passOn_some hrun; exact h
            | msg m => cases hrun
            | text t => cases hrun
            | ttd b => cases hrun
          rw [hk]
          exact .none (hf.1 hs.1)
        | distribute =>
          refine ih false z kz y kw' hs ?_ hr
          cases x with
          | doc d =>
            simp only [Stage.run, Except.ok.injEq, Option.some.injEq, Prod.mk.injEq] at hrun
            obtain ⟨_, rfl⟩ := hrun
            exact .none (by simp [Kw.set, Kw.drop])
          | msg m =>
            simp only [Stage.run, Except.ok.injEq, Option.some.injEq, Prod.mk.injEq] at hrun
            obtain ⟨_, rfl⟩ := hrun
            exact .none (by simp [Kw.set, Kw.drop])
          | text t => cases hrun
          | ttd b => cases hrun
        | buffer dl =>
          refine ih raw z kz y kw' hs ?_ hr
          simp only [Stage.run] at hrun
          split at hrun
          · cases hrun
          · simp only [Except.ok.injEq, Option.some.injEq, Prod.mk.injEq] at hrun
            obtain ⟨rfl, rfl⟩ := hrun
            refine ⟨fun h => by simpa [Kw.set] using hf.1 h, fun d s hd hk => hf.2 d s hd ?_⟩
            simpa [Kw.set] using hk
        | encode =>
          refine ih raw z kz y kw' hs ?_ hr
          cases x with
          | doc d =>
            simp only [Stage.run] at hrun
            split at hrun
            · cases hrun
            · split at hrun
              · cases hrun
              · simp only [Except.ok.injEq, Option.some.injEq, Prod.mk.injEq] at hrun
                obtain ⟨rfl, rfl⟩ := hrun
                exact .other (fun h => by simpa [Kw.set] using hf.1 h) (fun d h => by cases h)
          | msg m => cases hrun
          | text t => cases hrun
          | ttd b => cases hrun

/-- **C62 (part).** Where no node changes a document that still carries the text it was read from, the text a
distributing node sends at the end of any chain reads back as the document it was handed, and is announced
under that document's sequence identifier and number. -/
theorem C62_sends_what_it_got_partial (X : Codec) (pre : List Stage) (x : Data) (kw kw' : Kw) (d : Doc3)
    (hstart : kw .rawXml = none) (hfree : staleFree false pre = true)
    (hrun : runChain X pre x kw = .ok (some (.doc d, kw')))
    (hw : X.read (X.write3 d.bind) = some (.inl d.bind)) :
    ∃ s kw'', runChain X (pre ++ [.distribute]) x kw = .ok (some (.text s, kw'')) ∧
      X.read s = some (.inl d.bind) ∧ kw'' .sid = some (.str d.bind.sid) ∧ kw'' .num = some (.num d.bind.num) ∧
      kw''.avail = d.avail := by
  obtain ⟨raw', hf⟩ := fresh_chain X pre false x kw _ kw' hfree (.none hstart) hrun
  rw [runChain_append, hrun]
  refine ⟨_, _, rfl, ?_, by simp [Kw.set], by simp [Kw.set], ofTime_avail _ _ (by simp [Kw.set])⟩
  split
  · rename_i s hs
    exact hf.2 d s rfl hs
  · exact hw

/-- C62 is false in general: between a text input and a distributing node, what a retiming, handover or
deduplicating node does to a document is lost; the text that came in is sent, announced under the new
identifiers. -/
theorem C62_false (X : Codec) (s : String) (b b' : Bind) (kw : Kw) (f : Bind → Option Bind) (q : String) (st : Stage)
    (hst : st = .retime f ∨ st = .handover q f ∨ st = .dedup f)
    (hr : X.read s = some (.inl b)) (hv : X.valid b kw.avail = true) (hq : sidMatches kw b.sid = true)
    (hf : f b = some b') :
    ∃ kw', runChain X [.adapter .xmlTo3, st, .distribute] (.text s) kw = .ok (some (.text s, kw')) ∧
      kw' .sid = some (.str b'.sid) ∧ kw' .num = some (.num b'.num) := by
  have h1 : (Stage.adapter .xmlTo3).run X (.text s) kw
      = .ok (some (.doc ⟨b, kw.avail⟩, ((kw.drop .avail).drop .sid).set .rawXml (.str s))) := by
    simp [Stage.run, Adapter.convert, hr, hv, hq, Except.map]
  have h2 : st.run X (.doc ⟨b, kw.avail⟩) (((kw.drop .avail).drop .sid).set .rawXml (.str s))
      = .ok (some (.doc ⟨b', kw.avail⟩, ((kw.drop .avail).drop .sid).set .rawXml (.str s))) := by
    rcases hst with h | h | h <;> subst h <;> simp [Stage.run, passOn, hf]
  have h3 : ∀ kz : Kw, Stage.run X .distribute (.doc ⟨b', kw.avail⟩) (kz.set .rawXml (.str s))
      = .ok (some (.text s, ((((((kz.set .rawXml (.str s)).drop .rawXml).set .sid (.str b'.sid)).set .num (.num b'.num)).set
        .timeBase (.str b'.timeBase)).set .avail (.ofTime kw.avail)).set .clockMode (.ofStr b'.clockMode))) := by
    intro kz
    simp only [Stage.run, Kw.set_self]
  have h4 : runChain X [.adapter .xmlTo3, st, .distribute] (.text s) kw
      = Stage.run X .distribute (.doc ⟨b', kw.avail⟩) (((kw.drop .avail).drop .sid).set .rawXml (.str s)) := by
    unfold runChain
    rw [h1]
    simp only
    unfold runChain
    rw [h2]
    simp only
    unfold runChain
    rw [h3]
    rfl
  rw [h4, h3]
  exact ⟨_, rfl, by simp [Kw.set], by simp [Kw.set]⟩

/-- A codec that tells two documents apart by number. -/
def exCodec2 : Codec where
  write3 b := if b.num = 1 then "<one/>" else "<two/>"
  writeM _ := "<message/>"
  read s := if s = "<one/>" then some (.inl ⟨"seq", 1, "media", none, ""⟩)
    else if s = "<two/>" then some (.inl ⟨"seq", 2, "media", none, ""⟩) else none
  valid _ _ := true
  writeD s := s
  readD s := some s
  toD _ := some "<ttd/>"

/-- A chain `C62_sends_what_it_got_partial` applies to: the document is changed before it becomes text, then
delayed. -/
example : ∃ s kw'', runChain exCodec2 ([.dedup (fun b => some { b with num := 2 }), .adapter .threeToXml, .adapter .xmlTo3, .buffer 3]
      ++ [.distribute]) (.doc ⟨⟨"seq", 1, "media", none, ""⟩, none⟩) Kw.empty = .ok (some (.text s, kw'')) ∧
    exCodec2.read s = some (.inl ⟨"seq", 2, "media", none, ""⟩) := by
  obtain ⟨s, kw'', h1, h2, _⟩ := C62_sends_what_it_got_partial exCodec2
    [.dedup (fun b => some { b with num := 2 }), .adapter .threeToXml, .adapter .xmlTo3, .buffer 3]
    (.doc ⟨⟨"seq", 1, "media", none, ""⟩, none⟩) Kw.empty _ ⟨⟨"seq", 2, "media", none, ""⟩, none⟩ rfl rfl rfl rfl
  exact ⟨s, kw'', h1, h2⟩

example : staleFree false [.adapter .xmlTo3, .buffer 3, .distribute] = true ∧
    staleFree false [.retime some, .adapter .threeToXml, .adapter .xmlTo3] = true ∧
    staleFree false [.adapter .xmlTo3, .retime some] = false := by decide

example : ∃ kw', runChain exCodec2 [.adapter .xmlTo3, .dedup (fun b => some { b with num := 2 }), .distribute]
    (.text "<one/>") Kw.empty = .ok (some (.text "<one/>", kw')) ∧ kw' .num = some (.num 2) := by
  obtain ⟨kw', h1, _, h2⟩ := C62_false exCodec2 "<one/>" ⟨"seq", 1, "media", none, ""⟩ ⟨"seq", 2, "media", none, ""⟩ Kw.empty
    (fun b => some { b with num := 2 }) "" _ (.inr (.inr rfl)) rfl rfl rfl rfl
  exact ⟨kw', h1, h2⟩

/-! ### C63: delays and clashing keyword arguments -/

/-- No second buffer delay, and no encoder behind something that made a text of a document.  The flags say
whether there was one already. -/
def roomy : Bool → Bool → List Stage → Bool
  | _, _, [] => true
  | delay, text, .buffer _ :: l => !delay && roomy true text l
  | delay, text, .encode :: l => !text && roomy delay true l
  | delay, _, .distribute :: l => roomy delay true l
  | delay, _, .adapter .threeToXml :: l => roomy delay true l
  | delay, text, .adapter .xmlTo3 :: l => roomy delay text l
  | delay, text, .adapter .xmlToD :: l => roomy delay text l
  | delay, text, .adapter .dToXml :: l => roomy delay text l
  | delay, text, .adapter .threeToD :: l => roomy delay text l
  | delay, text, .retime _ :: l => roomy delay text l
  | delay, text, .handover _ _ :: l => roomy delay text l
  | delay, text, .dedup _ :: l => roomy delay text l

/-- The keyword arguments a stage other than a buffer, an encoder or a text maker may add. -/
theorem run_keeps (X : Codec) (s : Stage) (x z : Data) (kw kz : Kw) (h : s.run X x kw = .ok (some (z, kz))) :
    ((∀ d, s ≠ .buffer d) → kz .delay = kw .delay) ∧
    (s ≠ .encode → s ≠ .distribute → s ≠ .adapter .threeToXml →
      kz .timeBase = kw .timeBase ∧ ((∃ d, z = .doc d) → kz .sid = kw .sid ∨ kz .sid = none)) := by
  cases s with
  | adapter a =>
    simp only [Stage.run] at h
    cases hc : a.convert X x kw with
    | error e => rw [hc] at h; cases h
    | ok q =>
      rw [hc] at h
      simp only [Except.map, Except.ok.injEq, Option.some.injEq] at h
      rw [h] at hc
      cases a with
      | xmlTo3 =>
        cases x with
        | text t =>
          simp only [Adapter.convert] at hc
          split at hc
          · cases hc
          · split at hc
            · split at hc
              · simp only [Except.ok.injEq, Prod.mk.injEq] at hc
                obtain ⟨rfl, rfl⟩ := hc
                simp [Kw.set, Kw.drop]
              · cases hc
            · cases hc
          · split at hc
            · simp only [Except.ok.injEq, Prod.mk.injEq] at hc
              obtain ⟨rfl, rfl⟩ := hc
              simp [Kw.set, Kw.drop]
            · cases hc
        | doc d => cases hc
        | msg m => cases hc
        | ttd b => cases hc
      | xmlToD =>
        cases x with
        | text t =>
          simp only [Adapter.convert] at hc
          split at hc
          · cases hc
          · simp only [Except.ok.injEq, Prod.mk.injEq] at hc
            obtain ⟨rfl, rfl⟩ := hc
            simp
        | doc d => cases hc
        | msg m => cases hc
        | ttd b => cases hc
      | dToXml =>
        simp only [Adapter.convert] at hc
        cases hg : getXml X x with
        | error e => rw [hg] at hc; cases hc
        | ok t =>
          rw [hg] at hc
          simp only [Except.map, Except.ok.injEq, Prod.mk.injEq] at hc
          obtain ⟨rfl, rfl⟩ := hc
          simp
      | threeToXml =>
        cases x with
        | text t => cases hc
        | doc d =>
          simp only [Adapter.convert, Except.ok.injEq, Prod.mk.injEq] at hc
          obtain ⟨rfl, rfl⟩ := hc
          simp [Kw.set]
        | msg m =>
          simp only [Adapter.convert, Except.ok.injEq, Prod.mk.injEq] at hc
          obtain ⟨rfl, rfl⟩ := hc
          simp [Kw.set]
        | ttd b => cases hc
      | threeToD =>
        simp only [Adapter.convert, Except.ok.injEq, Prod.mk.injEq] at hc
        obtain ⟨rfl, rfl⟩ := hc
        simp
  | retime f =>
    have hk : kz = kw := by
      cases x with
      | doc d => simp only [Stage.run, Except.ok.injEq] at h; obtain ⟨_, _, _, h⟩ := passOn_some h; exact h
      | text t => simp only [Stage.run, Except.ok.injEq, Option.some.injEq, Prod.mk.injEq] at h; exact h.2.symm
      | msg m => simp only [Stage.run, Except.ok.injEq, Option.some.injEq, Prod.mk.injEq] at h; exact h.2.symm
      | ttd b => cases h
    simp [hk]
  | handover q f =>
    have hk : kz = kw := by
      cases x with
      | doc d => simp only [Stage.run, Except.ok.injEq] at h; obtain ⟨_, _, _, h⟩ := passOn_some h; exact h
      | msg m => simp only [Stage.run, Except.ok.injEq, Option.some.injEq, Prod.mk.injEq] at h; exact h.2.symm
      | text t => cases h
      | ttd b => cases h
    simp [hk]
  | dedup f =>
    have hk : kz = kw := by
      cases x with
      | doc d => simp only [Stage.run, Except.ok.injEq] at h; obtain ⟨_, _, _, h⟩ := passOn_some h; exact h
      | msg m => cases h
      | text t => cases h
      | ttd b => cases h
    simp [hk]
  | distribute =>
    cases x with
    | doc d =>
      simp only [Stage.run, Except.ok.injEq, Option.some.injEq, Prod.mk.injEq] at h
      obtain ⟨_, rfl⟩ := h
      simp [Kw.set, Kw.drop]
    | msg m =>
      simp only [Stage.run, Except.ok.injEq, Option.some.injEq, Prod.mk.injEq] at h
      obtain ⟨_, rfl⟩ := h
      simp [Kw.set, Kw.drop]
    | text t => cases h
    | ttd b => cases h
  | buffer dl =>
    simp only [Stage.run] at h
    split at h
    · cases h
    · simp only [Except.ok.injEq, Option.some.injEq, Prod.mk.injEq] at h
      obtain ⟨rfl, rfl⟩ := h
      simp [Kw.set]
  | encode =>
    cases x with
    | doc d =>
      simp only [Stage.run] at h
      split at h
      · cases h
      · split at h
        · cases h
        · simp only [Except.ok.injEq, Option.some.injEq, Prod.mk.injEq] at h
          obtain ⟨_, rfl⟩ := h
          simp [Kw.set]
    | msg m => cases h
    | text t => cases h
    | ttd b => cases h

/-- What a document carries when it arrives somewhere: a time base. -/
theorem run_sets_timeBase (X : Codec) (s : Stage) (d : Doc3) (z : Data) (kw kz : Kw)
    (hs : s = .distribute ∨ s = .adapter .threeToXml) (h : s.run X (.doc d) kw = .ok (some (z, kz))) :
    kz .timeBase = some (.str d.bind.timeBase) := by
  rcases hs with hs | hs <;> subst hs
  · simp only [Stage.run, Except.ok.injEq, Option.some.injEq, Prod.mk.injEq] at h
    obtain ⟨_, rfl⟩ := h
    simp [Kw.set]
  · simp only [Stage.run, Adapter.convert, Except.map, Except.ok.injEq, Option.some.injEq, Prod.mk.injEq] at h
    obtain ⟨_, rfl⟩ := h
    simp [Kw.set]

/-- Once set, it stays. -/
theorem run_timeBase_stays (X : Codec) (s : Stage) (x z : Data) (kw kz : Kw) (h : s.run X x kw = .ok (some (z, kz)))
    (ht : (kw .timeBase).isSome = true) : (kz .timeBase).isSome = true := by
  by_cases h1 : s = .encode
  · subst h1
    cases x with
    | doc d =>
      simp only [Stage.run] at h
      split at h
      · cases h
      · split at h
        · cases h
        · simp only [Except.ok.injEq, Option.some.injEq, Prod.mk.injEq] at h
          obtain ⟨_, rfl⟩ := h
          simp [Kw.set]
    | msg m => cases h
    | text t => cases h
    | ttd b => cases h
  · by_cases h2 : s = .distribute
    · subst h2
      cases x with
      | doc d => rw [run_sets_timeBase X _ d z kw kz (.inl rfl) h]; rfl
      | msg m =>
        simp only [Stage.run, Except.ok.injEq, Option.some.injEq, Prod.mk.injEq] at h
        obtain ⟨_, rfl⟩ := h
        simpa [Kw.set, Kw.drop] using ht
      | text t => cases h
      | ttd b => cases h
    · by_cases h3 : s = .adapter .threeToXml
      · subst h3
        cases x with
        | doc d => rw [run_sets_timeBase X _ d z kw kz (.inr rfl) h]; rfl
        | msg m =>
          simp only [Stage.run, Adapter.convert, Except.map, Except.ok.injEq, Option.some.injEq, Prod.mk.injEq] at h
          obtain ⟨_, rfl⟩ := h
          simpa [Kw.set] using ht
        | text t => cases h
        | ttd b => cases h
      · rw [((run_keeps X s x z kw kz h).2 h1 h2 h3).1]
        exact ht

theorem convert_no_clash (X : Codec) (a : Adapter) (x : Data) (kw : Kw) : a.convert X x kw ≠ .error .multipleValues := by
  intro h
  cases a with
  | xmlTo3 =>
    cases x with
    | text t =>
      simp only [Adapter.convert] at h
      split at h
      · cases h
      · split at h
        · split at h <;> cases h
        · cases h
      · split at h <;> cases h
    | doc d => cases h
    | msg m => cases h
    | ttd b => cases h
  | xmlToD =>
    cases x with
    | text t =>
      simp only [Adapter.convert] at h
      split at h <;> cases h
    | doc d => cases h
    | msg m => cases h
    | ttd b => cases h
  | dToXml =>
    cases x with
    | text t => cases h
    | doc d => cases h
    | msg m => cases h
    | ttd b => cases b <;> cases h
  | threeToXml => cases x <;> cases h
  | threeToD => cases h

/-- **C63.** In a chain without a second buffer delay and without an encoder behind something that made a text
of a document, handing over data never fails because a keyword argument is given twice, whatever the
data. -/
theorem C63_no_clash (X : Codec) (l : List Stage) (x : Data) (kw : Kw) (hroomy : roomy false false l = true)
    (hd : kw .delay = none) (ht : kw .timeBase = none) (hs : (∃ s, x = .text s) ∨ kw .sid = none) :
    runChain X l x kw ≠ .error .multipleValues := by
  have key : ∀ (l : List Stage) (delay text : Bool) (x : Data) (kw : Kw), roomy delay text l = true →
      (delay = false → kw .delay = none) →
      (text = false → kw .timeBase = none ∧ ((∃ d, x = .doc d) → kw .sid = none)) →
      runChain X l x kw ≠ .error .multipleValues := by
    intro l
    induction l with
    | nil => intro delay text x kw _ _ _ h; cases h
    | cons s ss ih =>
      intro delay text x kw hroom hdel htext h
      simp only [runChain] at h
      cases hrun : s.run X x kw with
      | error e =>
        rw [hrun] at h
        simp only [Except.error.injEq] at h
        subst h
        cases s with
        | adapter a =>
          simp only [Stage.run] at hrun
          cases hc : a.convert X x kw with
          | error e =>
            rw [hc] at hrun
            simp only [Except.map, Except.error.injEq] at hrun
            subst hrun
            exact convert_no_clash X a x kw hc
          | ok q => rw [hc] at hrun; cases hrun
        | retime f => cases x <;> simp [Stage.run] at hrun
        | handover q f => cases x <;> simp [Stage.run] at hrun
        | dedup f => cases x <;> simp [Stage.run] at hrun
        | distribute => cases x <;> simp [Stage.run] at hrun
        | buffer dl =>
          simp only [roomy, Bool.and_eq_true, Bool.not_eq_true'] at hroom
          simp [Stage.run, hdel hroom.1] at hrun
        | encode =>
          simp only [roomy, Bool.and_eq_true, Bool.not_eq_true'] at hroom
          cases x with
          | doc d =>
            obtain ⟨h1, h2⟩ := htext hroom.1
            simp only [Stage.run, h1, h2 ⟨d, rfl⟩] at hrun
            split at hrun
            · cases hrun
            · simp at hrun
          | msg m => cases hrun
          | text t => cases hrun
          | ttd b => cases hrun
      | ok r =>
        rw [hrun] at h
        cases r with
        | none => cases h
        | some p =>
          obtain ⟨z, kz⟩ := p
          simp only at h
          have hk := run_keeps X s x z kw kz hrun
          -- plain stages
          have plain : roomy delay text ss = true → (∀ d, s ≠ .buffer d) → s ≠ .encode → s ≠ .distribute →
              s ≠ .adapter .threeToXml → ((∃ d, z = .doc d) → (∃ d, x = .doc d) ∨ kz .sid = none) → False := by
            intro hr h1 h2 h3 h4 h5
            refine ih delay text z kz hr (fun hh => by rw [hk.1 h1]; exact hdel hh) (fun hh => ?_) h
            obtain ⟨h6, h7⟩ := hk.2 h2 h3 h4
            refine ⟨by rw [h6]; exact (htext hh).1, fun hz => ?_⟩
            rcases h7 hz with h8 | h8
            · rcases h5 hz with h9 | h9
              · rw [h8]; exact (htext hh).2 h9
              · exact h9
            · exact h8
          cases s with
          | adapter a =>
            cases a with
            | threeToXml =>
              exact ih delay true z kz hroom (fun hh => by rw [hk.1 (by simp)]; exact hdel hh) (fun hh => by cases hh) h
            | xmlTo3 =>
              refine plain hroom (by simp) (by simp) (by simp) (by simp) (fun ⟨d, hd⟩ => .inr ?_)
              simp only [Stage.run] at hrun
              cases x with
              | text t =>
                simp only [Adapter.convert] at hrun
                split at hrun
                · cases hrun
                · split at hrun
                  · split at hrun
                    · simp only [Except.map, Except.ok.injEq, Option.some.injEq, Prod.mk.injEq] at hrun
                      obtain ⟨_, rfl⟩ := hrun
                      simp [Kw.set, Kw.drop]
                    · cases hrun
                  · cases hrun
                · split at hrun
                  · simp only [Except.map, Except.ok.injEq, Option.some.injEq, Prod.mk.injEq] at hrun
                    obtain ⟨_, rfl⟩ := hrun
                    simp [Kw.set, Kw.drop]
                  · cases hrun
              | doc d => cases hrun
              | msg m => cases hrun
              | ttd b => cases hrun
            | xmlToD =>
              refine plain hroom (by simp) (by simp) (by simp) (by simp) (fun ⟨d, hd⟩ => ?_)
              subst hd
              simp only [Stage.run] at hrun
              cases x with
              | text t =>
                simp only [Adapter.convert] at hrun
                split at hrun
                · cases hrun
                · cases hrun
              | doc d => cases hrun
              | msg m => cases hrun
              | ttd b => cases hrun
            | dToXml =>
              refine plain hroom (by simp) (by simp) (by simp) (by simp) (fun ⟨d, hd⟩ => ?_)
              subst hd
              simp only [Stage.run, Adapter.convert] at hrun
              cases hg : getXml X x with
              | error e => rw [hg] at hrun; cases hrun
              | ok t => rw [hg] at hrun; cases hrun
            | threeToD =>
              refine plain hroom (by simp) (by simp) (by simp) (by simp) (fun ⟨d, hd⟩ => ?_)
              subst hd
              cases hrun
          | retime f =>
            refine plain hroom (by simp) (by simp) (by simp) (by simp) (fun ⟨d, hd⟩ => .inl ?_)
            cases x with
            | doc d => exact ⟨d, rfl⟩
            | text t => simp [Stage.run, hd] at hrun
            | msg m => simp [Stage.run, hd] at hrun
            | ttd b => cases hrun
          | handover q f =>
            refine plain hroom (by simp) (by simp) (by simp) (by simp) (fun ⟨d, hd⟩ => .inl ?_)
            cases x with
            | doc d => exact ⟨d, rfl⟩
            | msg m => simp [Stage.run, hd] at hrun
            | text t => cases hrun
            | ttd b => cases hrun
          | dedup f =>
            refine plain hroom (by simp) (by simp) (by simp) (by simp) (fun ⟨d, hd⟩ => .inl ?_)
            cases x with
            | doc d => exact ⟨d, rfl⟩
            | msg m => cases hrun
            | text t => cases hrun
            | ttd b => cases hrun
          | distribute =>
            exact ih delay true z kz hroom (fun hh => by rw [hk.1 (by simp)]; exact hdel hh) (fun hh => by cases hh) h
          | buffer dl =>
            simp only [roomy, Bool.and_eq_true, Bool.not_eq_true'] at hroom
            refine ih true text z kz hroom.2 (fun hh => by cases hh) (fun hh => ?_) h
            simp only [Stage.run] at hrun
            split at hrun
            · cases hrun
            · simp only [Except.ok.injEq, Option.some.injEq, Prod.mk.injEq] at hrun
              obtain ⟨rfl, rfl⟩ := hrun
              simpa [Kw.set] using htext hh
          | encode =>
            simp only [roomy, Bool.and_eq_true, Bool.not_eq_true'] at hroom
            exact ih delay true z kz hroom.2 (fun hh => by rw [hk.1 (by simp)]; exact hdel hh) (fun hh => by cases hh) h
  refine key l false false x kw hroomy (fun _ => hd) (fun _ => ⟨ht, fun ⟨d, hx⟩ => ?_⟩)
  rcases hs with ⟨s, hs⟩ | hs
  · rw [hx] at hs; cases hs
  · exact hs

theorem chain_delay (X : Codec) (dl : Int) : ∀ (l : List Stage) (x z : Data) (kw kz : Kw),
    kw .delay = some (.time dl) → runChain X l x kw = .ok (some (z, kz)) → kz .delay = some (.time dl) := by
  intro l
  induction l with
  | nil =>
    intro x z kw kz hd h
    simp only [runChain, Except.ok.injEq, Option.some.injEq, Prod.mk.injEq] at h
    rw [← h.2]
    exact hd
  | cons s ss ih =>
    intro x z kw kz hd h
    simp only [runChain] at h
    cases hrun : s.run X x kw with
    | error e => rw [hrun] at h; cases h
    | ok r =>
      rw [hrun] at h
      cases r with
      | none => cases h
      | some p =>
        simp only at h
        by_cases hb : ∃ d, s = .buffer d
        · obtain ⟨d, hb⟩ := hb
          subst hb
          simp [Stage.run, hd] at hrun
        · exact ih _ _ _ _ ((((run_keeps X s x p.1 kw p.2 hrun).1) (fun d hh => hb ⟨d, hh⟩)).trans hd) h

/-- **C63.** A delay asked for by a buffer delay node anywhere in a chain is what the carriage at the end is
given, whatever lies between. -/
theorem C63_delay_reaches_the_end (X : Codec) (pre post : List Stage) (dl : Int) (x z : Data) (kw kz : Kw)
    (h : runChain X (pre ++ .buffer dl :: post) x kw = .ok (some (z, kz))) : kz .delay = some (.time dl) := by
  rw [runChain_append] at h
  cases hp : runChain X pre x kw with
  | error e => rw [hp] at h; cases h
  | ok r =>
    rw [hp] at h
    cases r with
    | none => cases h
    | some p =>
      simp only [runChain, Stage.run] at h
      split at h
      · cases h
      · rename_i heq
        split at heq <;> cases heq
      · rename_i y kw' heq
        split at heq
        · cases heq
        · simp only [Except.ok.injEq, Option.some.injEq, Prod.mk.injEq] at heq
          refine chain_delay X dl post y z kw' kz ?_ h
          rw [← heq.2]
          simp

/-- C63 is false for two buffer delays in one chain: everything that gets past the first fails at the second. -/
theorem C63_false_two_delays (X : Codec) (pre mid post : List Stage) (d1 d2 : Int) (x z : Data) (kw kz : Kw)
    (h : runChain X (pre ++ .buffer d1 :: mid) x kw = .ok (some (z, kz))) :
    runChain X ((pre ++ .buffer d1 :: mid) ++ .buffer d2 :: post) x kw = .error .multipleValues := by
  rw [runChain_append, h]
  simp [runChain, Stage.run, C63_delay_reaches_the_end X pre mid d1 x z kw kz h]

theorem chain_timeBase (X : Codec) : ∀ (l : List Stage) (x z : Data) (kw kz : Kw),
    (kw .timeBase).isSome = true → runChain X l x kw = .ok (some (z, kz)) → (kz .timeBase).isSome = true := by
  intro l
  induction l with
  | nil =>
    intro x z kw kz hd h
    simp only [runChain, Except.ok.injEq, Option.some.injEq, Prod.mk.injEq] at h
    rw [← h.2]
    exact hd
  | cons s ss ih =>
    intro x z kw kz hd h
    simp only [runChain] at h
    cases hrun : s.run X x kw with
    | error e => rw [hrun] at h; cases h
    | ok r =>
      rw [hrun] at h
      cases r with
      | none => cases h
      | some p => exact ih _ _ _ _ (run_timeBase_stays X s x p.1 kw p.2 hrun hd) h

/-- C63 is false for an encoder behind a node or adapter that made a text of the document: every document
that can be encoded fails. -/
theorem C63_false_encoder (X : Codec) (pre mid post : List Stage) (st : Stage) (x : Data) (d d' : Doc3) (kw k1 kz : Kw)
    (b : String) (hst : st = .distribute ∨ st = .adapter .threeToXml)
    (h1 : runChain X pre x kw = .ok (some (.doc d, k1)))
    (h2 : runChain X (pre ++ st :: mid) x kw = .ok (some (.doc d', kz))) (hb : X.toD d'.bind = some b) :
    runChain X ((pre ++ st :: mid) ++ .encode :: post) x kw = .error .multipleValues := by
  have ht : (kz .timeBase).isSome = true := by
    rw [runChain_append, h1] at h2
    simp only [runChain] at h2
    cases hrun : st.run X (.doc d) k1 with
    | error e => rw [hrun] at h2; cases h2
    | ok r =>
      rw [hrun] at h2
      cases r with
      | none => cases h2
      | some p =>
        simp only at h2
        refine chain_timeBase X mid _ _ _ _ ?_ h2
        rw [run_sets_timeBase X st d p.1 k1 p.2 hst hrun]
        rfl
  rw [runChain_append, h2]
  simp [runChain, Stage.run, hb, ht]

/-- Chains the theorems are about. -/
example : roomy false false [.adapter .xmlTo3, .retime some, .buffer 2, .encode, .adapter .dToXml] = true ∧
    roomy false false [.buffer 1, .buffer 2] = false ∧
    roomy false false [.distribute, .adapter .xmlTo3, .encode] = false := by decide

example : (runChain exCodec2 [.adapter .xmlTo3, .buffer 2, .encode, .adapter .dToXml] (.text "<one/>") Kw.empty).toOption.map
    (fun r => r.map (fun p => (p.1, p.2 .delay))) = some (some (.text "<ttd/>", some (.time 2))) := by rfl

example : (runChain exCodec2 [.adapter .xmlTo3, .distribute, .adapter .xmlTo3] (.text "<one/>") Kw.empty).toOption.map
    (fun r => r.map (·.1)) = some (some (.doc ⟨⟨"seq", 1, "media", none, ""⟩, none⟩)) := by rfl

end Verif.Adapt
