import Verif.Adapt.Props
import Verif.Fs.Props
import Verif.Ws.Props

/-!
# Documents on their way through carriages (C61, C62, C63)
-/
namespace Verif.Adapt

/-! ### C61: documents survive text carriages -/

/-- The document is written to a text that is not empty and is read back as it was; it is valid with
availability time `a`. -/
structure Survives (X : Codec) (b : Bind) (a : Option Int) : Prop where
  reads : X.read (X.write3 b) = some (.inl b)
  nonempty : X.write3 b ≠ ""
  valid : X.valid b a = true

@[simp] theorem Kw.set_self (kw : Kw) (k : Key) (v : Val) : (kw.set k v) k = some v := by simp [Kw.set]

theorem Kw.set_other {kw : Kw} {k k' : Key} {v : Val} (h : k' ≠ k) : (kw.set k v) k' = kw k' := by simp [Kw.set, h]

theorem Kw.drop_other {kw : Kw} {k k' : Key} (h : k' ≠ k) : (kw.drop k) k' = kw k' := by simp [Kw.drop, h]

theorem ofTime_avail (t : Option Int) (kw : Kw) (h : kw .avail = some (.ofTime t)) : kw.avail = t := by
  unfold Kw.avail
  rw [h]
  cases t <;> rfl

/-- **C61.** A document that is turned into text and back on its way (an in-memory carriage between two
adapters) arrives as it was, with its availability time, whatever keyword arguments came with it; with the
arguments that describe it, the text, and all others untouched. -/
theorem C61_text_and_back (X : Codec) (d : Doc3) (kw : Kw) (h : Survives X d.bind d.avail) :
    ∃ kw', convertAll X [.threeToXml, .xmlTo3] (.doc d) kw = .ok (.doc d, kw') ∧
      kw' .rawXml = some (.str (X.write3 d.bind)) ∧ kw' .num = some (.num d.bind.num) ∧
      kw' .sid = none ∧ kw' .avail = none ∧ kw' .delay = kw .delay ∧
      ∀ n, kw' (.other n) = kw (.other n) := by
  have ha : Kw.avail (((((kw.set .sid (.str d.bind.sid)).set .num (.num d.bind.num)).set .avail
      (.ofTime d.avail)).set .timeBase (.str d.bind.timeBase)).set .clockMode (.ofStr d.bind.clockMode)) = d.avail := by
    apply ofTime_avail
    simp [Kw.set]
  refine ⟨((((((((kw.set .sid (.str d.bind.sid)).set .num (.num d.bind.num)).set .avail
      (.ofTime d.avail)).set .timeBase (.str d.bind.timeBase)).set .clockMode (.ofStr d.bind.clockMode)).drop
      .avail).drop .sid).set .rawXml (.str (X.write3 d.bind))), ?_, ?_⟩
  · simp only [convertAll, Adapter.convert]
    rw [h.reads]
    simp only
    rw [ha, if_pos h.valid, if_pos (by simp [sidMatches, Kw.set])]
  · simp [Kw.set, Kw.drop]

/-- A text announced under another sequence identifier than the one inside is refused, and one announced
under its own is not. -/
theorem C61_announced (X : Codec) (s : String) (b : Bind) (kw : Kw) (q : String)
    (hr : X.read s = some (.inl b)) (hv : X.valid b kw.avail = true) (hq : kw .sid = some (.str q)) :
    (q ≠ b.sid → convertAll X [.xmlTo3] (.text s) kw = .error .otherSequence) ∧
    (q = b.sid → ∃ kw', convertAll X [.xmlTo3] (.text s) kw = .ok (.doc ⟨b, kw.avail⟩, kw')) := by
  constructor
  · intro h
    simp [convertAll, Adapter.convert, hr, hv, sidMatches, hq, h]
  · intro h
    refine ⟨((kw.drop .avail).drop .sid).set .rawXml (.str s), ?_⟩
    simp [convertAll, Adapter.convert, hr, hv, sidMatches, hq, h]

/-- What a producer's output carriage on the filesystem is called with for a document. -/
def fsEmitted (X : Codec) (clock : Option Int) (d : Doc3 × Kw) : Option Fs.Out :=
  match convertAll X [.threeToXml] (.doc d.1) d.2 with
  | .ok (.text s, kw) => some (fsOut clock s kw)
  | _ => none

/-- What arrives at a node that reads the folder, `none` if reading ends with an exception. -/
def fsReceived (X : Codec) (disk : Fs.Disk) : Option (List (Except Err Data)) :=
  disk.read.map (fun l => l.map (fun r => (convertAll X [.xmlTo3] (fsIn r).1 (fsIn r).2).map (·.1)))

/-- The delay asked for with the keyword arguments. -/
def Kw.delayed (kw : Kw) : Int :=
  match kw .delay with
  | some (.time d) => d
  | _ => 0

theorem fsEmitted_eq (X : Codec) (clock : Option Int) (d : Doc3) (kw : Kw) :
    ∃ o, fsEmitted X clock (d, kw) = some o ∧ o.seq = d.bind.sid.toList ∧ o.num = some d.bind.num ∧
      o.data = (X.write3 d.bind).toList ∧ o.avail = (match d.avail with | some t => some t | none => clock) ∧
      o.delay.getD 0 = kw.delayed := by
  refine ⟨_, rfl, ?_, ?_, ?_, ?_, ?_⟩
  · simp [fsOut, Kw.set]
  · simp [fsOut, Kw.set]
  · rfl
  · simp only [fsOut]
    rw [ofTime_avail d.avail _ (by simp [Kw.set])]
    cases d.avail <;> rfl
  · simp only [fsOut, Kw.set, Kw.delayed]
    cases hk : kw .delay with
    | none => simp
    | some v => cases v <;> simp

/-- **C61, filesystem.** Documents of one sequence written to a folder and read from it by another application
arrive in the same order, each with its own content, and with its availability time (and the delay asked
for) to the millisecond. -/
theorem C61_filesystem (X : Codec) (clock : Option Int) (files : Fs.Text → Option Fs.Text) (sid : String)
    (ds : List (Doc3 × Kw)) (hsid : ∀ d ∈ ds, d.1.bind.sid = sid) (hcomma : ',' ∉ sid.toList) (hnl : '\n' ∉ sid.toList)
    (hnum : (ds.map (·.1.bind.num)).Nodup)
    (t : Doc3 × Kw → Int) (ht : ∀ d ∈ ds, d.1.avail = some (t d))
    (h : ∀ d ∈ ds, Survives X d.1.bind (some (Fs.wholeMs (t d + d.2.delayed)))) :
    fsReceived X (Fs.produced files (ds.filterMap (fsEmitted X clock))) =
      some (ds.map (fun d => .ok (.doc ⟨d.1.bind, some (Fs.wholeMs (t d + d.2.delayed))⟩))) := by
  have hone : Fs.OneSequence sid.toList (ds.filterMap (fsEmitted X clock)) := by
    refine ⟨?_, hcomma, hnl, ?_⟩
    · intro o ho
      obtain ⟨d, hd, hde⟩ := List.mem_filterMap.mp ho
      obtain ⟨o', h1, h2, -⟩ := fsEmitted_eq X clock d.1 d.2
      rw [h1] at hde
      injection hde with hde
      rw [← hde, h2, hsid d hd]
    · have : (ds.filterMap (fsEmitted X clock)).filterMap (·.num) = ds.map (·.1.bind.num) := by
        clear h ht hnum hsid
        induction ds with
        | nil => rfl
        | cons d ds ih =>
          obtain ⟨o', h1, -, h3, -⟩ := fsEmitted_eq X clock d.1 d.2
          rw [List.filterMap_cons_some h1, List.filterMap_cons_some h3, List.map_cons, ih]
      rw [this]
      exact hnum
  unfold fsReceived
  rw [Fs.C44_read_back_partial sid.toList _ files hone]
  simp only [Option.map_some, Option.some.injEq]
  clear hone hnum hsid
  induction ds with
  | nil => rfl
  | cons d ds ih =>
    obtain ⟨o, h1, -, -, h4, h5, h6⟩ := fsEmitted_eq X clock d.1 d.2
    have hs := h d List.mem_cons_self
    rw [List.filterMap_cons_some h1, List.flatMap_cons, List.map_append, List.map_cons,
      ih (fun d hd => ht d (List.mem_cons_of_mem _ hd)) (fun d hd => h d (List.mem_cons_of_mem _ hd))]
    have hh : Fs.handed o = [(Fs.wholeMs (t d + d.2.delayed), (X.write3 d.1.bind).toList)] := by
      unfold Fs.handed
      rw [h5, ht d List.mem_cons_self]
      simp only
      rw [h4, h6, if_neg (by
        intro hn
        apply hs.nonempty
        rw [← String.toList_inj, hn]
        rfl)]
    rw [hh]
    have ha : (Kw.empty.set .avail (.time (Fs.wholeMs (t d + d.2.delayed)))).avail = some (Fs.wholeMs (t d + d.2.delayed)) :=
      ofTime_avail (some _) _ (by simp [Kw.set, Val.ofTime])
    simp only [List.map_cons, List.map_nil, List.singleton_append, List.cons.injEq, and_true, fsIn, convertAll,
      Adapter.convert, String.ofList_toList]
    rw [hs.reads]
    simp only
    rw [ha, if_pos hs.valid, if_pos (by simp [sidMatches, Kw.set, Kw.empty])]
    rfl

/-- What the websocket server of a producer is asked to do for a document. -/
def wsEmitted (X : Codec) (d : Doc3) (kw : Kw) : Option Ws.Ev :=
  match convertAll X [.threeToXml] (.doc d) kw with
  | .ok (.text s, kw') => some (wsOut s kw')
  | _ => none

/-- The events by which a producer publishes. -/
def publishes : Ws.Ev → Option (String × String)
  | .emit q s => some (q, s)
  | .emitLater q s => some (q, s)
  | _ => none

theorem wsEmitted_eq (X : Codec) (d : Doc3) (kw : Kw) :
    ∃ e, wsEmitted X d kw = some e ∧ publishes e = some (d.bind.sid, X.write3 d.bind) := by
  refine ⟨_, rfl, ?_⟩
  simp only [wsOut, Kw.set]
  cases hk : kw .delay with
  | none => simp [publishes]
  | some v => cases v <;> simp [publishes]

theorem mem_inbox (prod cons : Bool) (c : Nat) (s : String) : ∀ (evs : List Ws.Ev) (st : Ws.Status) (w : List (String × String)),
    s ∈ Ws.inbox prod cons c st w evs →
      ∃ q, (st = .subscriber q ∨ Ws.Ev.opened c [q, "subscribe"] ∈ evs) ∧
        ((q, s) ∈ w ∨ ∃ e ∈ evs, publishes e = some (q, s)) := by
  intro evs
  induction evs with
  | nil => intro st w h; cases h
  | cons e es ih =>
    intro st w h
    unfold Ws.inbox at h
    replace h := List.mem_append.mp h
    rcases h with h | h
    · -- published now
      cases hp : Ws.published w e with
      | none => rw [hp] at h; simp at h
      | some p =>
        rw [hp] at h
        cases st with
        | absent => simp at h
        | publisher q => simp at h
        | gone => simp at h
        | subscriber q =>
          obtain ⟨q', s'⟩ := p
          rw [Ws.forOne_sub] at h
          split at h
          · rename_i hq
            subst hq
            have hm := List.mem_singleton.mp h
            subst hm
            refine ⟨q', .inl rfl, ?_⟩
            cases e with
            | emit a b =>
              simp only [Ws.published, Option.some.injEq] at hp
              exact .inr ⟨_, List.mem_cons_self, by simp [publishes, hp]⟩
            | fire i =>
              simp only [Ws.published] at hp
              exact .inl (List.mem_of_getElem? hp)
            | opened _ _ => simp [Ws.published] at hp
            | lost _ => simp [Ws.published] at hp
            | message _ _ _ => simp [Ws.published] at hp
            | emitLater _ _ => simp [Ws.published] at hp
          · simp at h
    · obtain ⟨q, h1, h2⟩ := ih _ _ h
      refine ⟨q, ?_, ?_⟩
      · rcases h1 with h1 | h1
        · cases e with
          | opened c' path =>
            simp only [Ws.Status.next] at h1
            split at h1
            · rename_i hc
              subst hc
              right
              have : path = [q, "subscribe"] := by
                unfold Ws.admitted at h1
                split at h1
                · rename_i a b
                  split at h1
                  · rename_i hb
                    injection h1 with h1
                    rw [h1, hb.1]
                  · split at h1 <;> cases h1
                · cases h1
              rw [this]
              exact List.mem_cons_self
            · exact .inl h1
          | lost c' =>
            simp only [Ws.Status.next] at h1
            split at h1
            · cases h1
            · exact .inl h1
          | message c' d r =>
            simp only [Ws.Status.next] at h1
            split at h1
            · cases st with
              | subscriber _ => cases h1
              | absent => cases h1
              | publisher _ => cases r <;> cases h1
              | gone => cases h1
            · exact .inl h1
          | emit _ _ => exact .inl h1
          | emitLater _ _ => exact .inl h1
          | fire _ => exact .inl h1
        · exact .inr (List.mem_cons_of_mem _ h1)
      · rcases h2 with h2 | ⟨e', he', h2⟩
        · cases e with
          | emitLater a b =>
            simp only [Ws.waitingAfter, List.mem_append, List.mem_singleton] at h2
            rcases h2 with h2 | h2
            · exact .inl h2
            · exact .inr ⟨_, List.mem_cons_self, by simp [publishes, h2]⟩
          | fire i => exact .inl (List.mem_of_mem_eraseIdx h2)
          | opened _ _ => exact .inl h2
          | lost _ => exact .inl h2
          | message _ _ _ => exact .inl h2
          | emit _ _ => exact .inl h2
        · exact .inr ⟨e', List.mem_cons_of_mem _ he', h2⟩

theorem opened_unique : ∀ (evs : List Ws.Ev), (Ws.opens evs).Nodup → ∀ (c : Nat) (p p' : List String),
    Ws.Ev.opened c p ∈ evs → Ws.Ev.opened c p' ∈ evs → p = p' := by
  intro evs
  induction evs with
  | nil => intro _ c p p' h; cases h
  | cons e es ih =>
    intro hn c p p' h h'
    have hmem : ∀ q, Ws.Ev.opened c q ∈ es → c ∈ Ws.opens es := fun q hq => List.mem_filterMap.mpr ⟨_, hq, rfl⟩
    have hes : (Ws.opens es).Nodup := by
      unfold Ws.opens at hn ⊢
      rw [List.filterMap_cons] at hn
      split at hn
      · exact hn
      · exact (List.nodup_cons.mp hn).2
    rcases List.mem_cons.mp h with h | h <;> rcases List.mem_cons.mp h' with h' | h'
    · rw [← h'] at h; injection h
    · rw [← h] at hn
      exact absurd (hmem p' h') (List.nodup_cons.mp hn).1
    · rw [← h'] at hn
      exact absurd (hmem p h) (List.nodup_cons.mp hn).1
    · exact ih hes c p p' h h'

/-- **C61, websocket.** In every history of a producer's websocket server that publishes documents, whatever
connections open, close or talk: a client that subscribed to sequence `q` is only sent texts that its node
accepts, as documents of that sequence, each one of those published.  (The availability time is not sent;
the consumer sets its own.) -/
theorem C61_websocket (X : Codec) (prod cons : Bool) (evs : List Ws.Ev) (hopen : (Ws.opens evs).Nodup)
    (hpub : ∀ e ∈ evs, publishes e ≠ none → ∃ d kw, wsEmitted X d kw = some e ∧ Survives X d.bind none)
    (c : Nat) (q : String) (hc : Ws.Ev.opened c [q, "subscribe"] ∈ evs) (s : String)
    (hs : (c, s) ∈ (Ws.run prod cons evs).sent) :
    ∃ d kw e kw', e ∈ evs ∧ wsEmitted X d kw = some e ∧ d.bind.sid = q ∧
      convertAll X [.xmlTo3] (wsIn q s).1 (wsIn q s).2 = .ok (.doc ⟨d.bind, none⟩, kw') := by
  have h1 := Ws.C47_subscribers prod cons evs hopen c
  have h2 : s ∈ Ws.inbox prod cons c .absent [] evs := by
    rw [← h1]
    exact List.mem_map.mpr ⟨(c, s), List.mem_filter.mpr ⟨hs, by simp⟩, rfl⟩
  obtain ⟨q', h3, h4⟩ := mem_inbox prod cons c s evs .absent [] h2
  have hq : q' = q := by
    rcases h3 with h3 | h3
    · cases h3
    · have := opened_unique evs hopen c _ _ h3 hc
      injection this
  subst hq
  rcases h4 with h4 | ⟨e, he, h4⟩
  · cases h4
  · obtain ⟨d, kw, hd, hsv⟩ := hpub e he (by rw [h4]; simp)
    obtain ⟨e', he', hp⟩ := wsEmitted_eq X d kw
    rw [hd] at he'
    injection he' with he'
    subst he'
    rw [h4] at hp
    simp only [Option.some.injEq, Prod.mk.injEq] at hp
    obtain ⟨hp1, hp2⟩ := hp
    refine ⟨d, kw, e, (((Kw.empty.set .sid (.str q')).drop .avail).drop .sid).set .rawXml (.str s), he, hd, hp1.symm, ?_⟩
    have ha : (Kw.empty.set .sid (.str q')).avail = none := by simp [Kw.avail, Kw.set, Kw.empty]
    simp only [wsIn, convertAll, Adapter.convert]
    rw [hp2, hsv.reads]
    simp only
    rw [ha, if_pos hsv.valid, if_pos (by simp [sidMatches, Kw.set, hp1])]

/-- The example document survives. -/
theorem exSurvives (a : Option Int) : Survives exCodec exDoc.bind a := ⟨by decide, by decide, rfl⟩

/-- `C61_filesystem` applies to it, with a delay, and `C61_websocket` to two subscribers. -/
example : fsReceived exCodec (Fs.produced (fun _ => none)
      ([(exDoc, Kw.empty.set .delay (.time 2500000))].filterMap (fsEmitted exCodec none)))
    = some [.ok (.doc ⟨exDoc.bind, some 2500000⟩)] := by
  rw [C61_filesystem exCodec none _ "seq" _ (by intro d hd; simp at hd; subst hd; rfl) (by decide) (by decide) (by decide)
    (fun _ => 5) (by intro d hd; simp at hd; subst hd; rfl) (by intro d hd; simp at hd; subst hd; exact exSurvives _)]
  rfl

example : let evs : List Ws.Ev := [.opened 1 ["seq", "subscribe"], .opened 2 ["other", "subscribe"], .emit "seq" "<tt/>"]
    (Ws.opens evs).Nodup ∧ wsEmitted exCodec exDoc Kw.empty = some (.emit "seq" "<tt/>") ∧
      (Ws.run true true evs).sent = [(1, "<tt/>")] := by
  refine ⟨by decide, by decide, by decide⟩

/-- C61 is false for live messages: turned into text and back, a message has lost its availability time. -/
theorem C61_false_message (X : Codec) (m : MBind) (t : Int) (kw : Kw) (h : X.read (X.writeM m) = some (.inr m)) :
    ∃ kw', convertAll X [.threeToXml, .xmlTo3] (.msg ⟨m, some t⟩) kw = .ok (.msg ⟨m, none⟩, kw') := by
  refine ⟨((((kw.set .sid (.str m.sid)).set .avail (.time t)).drop .avail).drop .sid).set .rawXml
    (.str (X.writeM m)), ?_⟩
  simp only [convertAll, Adapter.convert]
  rw [h]
  simp only
  rw [if_pos (by simp [sidMatches, Kw.set])]
  rfl

end Verif.Adapt
