import Verif.Ws.Net

/-!
# What is published at one end of a websocket reaches the consumer at the other (C81)
-/
namespace Verif.Ws

/-! ### Specification -/

/-- The connections made. -/
def connects : List NEv → List Nat := List.filterMap (fun | .connect c => some c | _ => none)

/-- What the server would see if no client ever sent anything. -/
def serverSide (setup : Nat → Setup) : List NEv → List Ev :=
  List.filterMap (fun
    | .connect c => some (.opened c (setup c).path)
    | .lost c => some (.lost c)
    | .emit s d => some (.emit s d)
    | .emitLater s d => some (.emitLater s d)
    | .fire i => some (.fire i)
    | _ => none)

/-- The sequence a path is about. -/
def sequenceOf (path : List String) : String := path.headD ""

/-- What the client's end of a connection is to its producer. -/
inductive End where
  /-- not connected yet -/
  | closed
  /-- the server's end is open -/
  | connecting
  | publishing (seq : String)
  /-- open for something else, refused, or lost -/
  | other
deriving DecidableEq, Repr

/-- What an event makes of it: a client publishes when its path is `[sequence, "publish"]` and it has a producer. -/
def End.next (u : Setup) (c : Nat) (e : End) : NEv → End
  | .connect c' => if c' = c ∧ e = .closed then .connecting else e
  | .accepted c' =>
    if c' = c ∧ e = .connecting then
      (if u.path = [sequenceOf u.path, "publish"] ∧ u.producer.isSome = true then .publishing (sequenceOf u.path) else .other)
    else e
  | .clientLost c' => if c' = c ∧ e ≠ .closed ∧ e ≠ .connecting then .other else e
  | _ => e

/-- What a producer of clients publishes at an event, at once or when the reactor runs a delayed write. -/
def emitted (w : List (Nat × String × String)) : NEv → Option (Nat × String × String)
  | .clientEmit p s d => some (p, s, d)
  | .clientFire i => w[i]?
  | _ => none

/-- The delayed writes of the clients' producers. -/
def delayedAfter (w : List (Nat × String × String)) : NEv → List (Nat × String × String)
  | .clientEmitLater p s d => w ++ [(p, s, d)]
  | .clientFire i => w.eraseIdx i
  | _ => w

/-- What of a publication goes out on a connection. -/
def toSay (u : Setup) : Option (Nat × String × String) → End → List String
  | some (p, s, d), .publishing q => if u.producer = some p ∧ s = q then [d] else []
  | _, _ => []

/-- What client `c` must send: whatever its producer publishes for the sequence of its URL while the connection is open. -/
def uttered (u : Setup) (c : Nat) : End → List (Nat × String × String) → List NEv → List String
  | _, _, [] => []
  | e, w, ev :: evs => toSay u (emitted w ev) e ++ uttered u c (e.next u c ev) (delayedAfter w ev) evs

/-- What was handed to the consumer on connection `c`, with the sequence identifiers. -/
def Net.handed (n : Net) (c : Nat) : List (String × String) := (n.got.filter (·.1 = c)).map (·.2)

/-- The part of a list that is of connection `c`. -/
def ofConn {α : Type} (l : List (Nat × α)) (c : Nat) : List α := (l.filter (·.1 = c)).map (·.2)

/-! ### How a client can change -/

/-- The ways in which an event changes the client's end of a connection. -/
inductive Move (u : Setup) (x : Client) : Client → Prop
  | same : Move u x x
  | opened : x.isOpen = false → Move u x (clientOpen u x)
  | gone : x.isOpen = true → Move u x (clientGone u x)
  | said (p : Nat) (s d : String) : x.listed = true → u.producer = some p → Move u x (clientSend s d x)
  | took (r : Bool) : x.isOpen = true → x.dropped = false → (r = true → x.action = some .subscribe) →
      Move u x { x with taken := x.taken + 1, dropped := x.dropped || r }
  | heard : x.heard < x.said.length → Move u x { x with heard := x.heard + 1 }

theorem change_eq (n : Net) (c : Nat) (f : Client → Client) : (n.change c f).client c = f (n.client c) := by simp [Net.change]

theorem change_ne (n : Net) {c c' : Nat} (h : c' ≠ c) (f : Client → Client) : (n.change c f).client c' = n.client c' := by
  simp [Net.change, h]

theorem write_moves (setup : Nat → Setup) (p : Nat) (s d : String) (n : Net) (c : Nat) :
    Move (setup c) (n.client c) ((clientWrite setup p s d n).client c) := by
  simp only [clientWrite]
  split
  · rename_i h; exact .said p s d h.1 h.2
  · exact .same

/-- What hearing does to the client. -/
theorem hears_client (c : Nat) (d : String) (r : Bool) (n : Net) :
    (clientHears c d r n).client c = { n.client c with
      taken := (n.client c).taken + 1
      dropped := (n.client c).dropped || (r && decide ((n.client c).action = some .subscribe) && (n.client c).fed) } := by
  unfold clientHears
  by_cases ha : (n.client c).action = some .subscribe
  · by_cases hf : (n.client c).fed = true
    · simp [ha, hf, Net.change]
    · simp [ha, hf, Net.change]
  · simp [ha, Net.change]

theorem hears_other (c c' : Nat) (hc : c' ≠ c) (d : String) (r : Bool) (n : Net) :
    (clientHears c d r n).client c' = n.client c' := by
  unfold clientHears
  simp only
  split
  · split <;> simp [Net.change, hc]
  · simp [Net.change, hc]

theorem moves (setup : Nat → Setup) (n : Net) (e : NEv) (c : Nat) : Move (setup c) (n.client c) ((clientStep setup n e).client c) := by
  have hch : ∀ (c' : Nat) (f : Client → Client), (c' = c → Move (setup c) (n.client c) (f (n.client c))) →
      Move (setup c) (n.client c) ((n.change c' f).client c) := by
    intro c' f h
    by_cases hc : c = c'
    · subst hc; rw [change_eq]; exact h rfl
    · rw [change_ne n hc]; exact .same
  cases e with
  | accepted c' =>
    simp only [clientStep]
    split
    · rename_i h
      refine hch c' _ ?_
      rintro rfl
      exact .opened h.2
    · exact .same
  | clientLost c' =>
    simp only [clientStep]
    split
    · rename_i h
      refine hch c' _ ?_
      rintro rfl
      exact .gone h
    · exact .same
  | clientEmit p s d => exact write_moves setup p s d n c
  | clientFire i =>
    simp only [clientStep]
    split
    · exact .same
    · rename_i p s d _; exact write_moves setup p s d n c
  | deliver c' r =>
    simp only [clientStep]
    split
    · rename_i h
      split
      · exact .same
      · rename_i d _
        by_cases hc : c = c'
        · subst hc
          rw [hears_client]
          refine .took _ h.1 h.2 ?_
          intro hr
          simp only [Bool.and_eq_true, decide_eq_true_eq] at hr
          exact hr.1.2
        · rw [hears_other c' c hc]; exact .same
    · exact .same
  | upload c' r =>
    simp only [clientStep]
    split
    · rename_i h
      refine hch c' _ ?_
      rintro rfl
      exact .heard h
    · exact .same
  | connect _ => exact .same
  | lost _ => exact .same
  | emit _ _ => exact .same
  | emitLater _ _ => exact .same
  | fire _ => exact .same
  | clientEmitLater _ _ _ => exact .same

/-! ### Invariants of one client -/

structure CInv (u : Setup) (x : Client) : Prop where
  fresh : x.isOpen = false → x = {}
  read : x.isOpen = true → (x.seq, x.action) = parsePath u.path
  fed : x.isOpen = true → x.action = some .subscribe → x.dropped = false → x.fed = true
  listed : x.listed = true → x.isOpen = true ∧ x.action = some .publish ∧ x.dropped = false ∧ u.producer.isSome = true
  said : x.said ≠ [] → x.action = some .publish
  bound : x.heard ≤ x.said.length

theorem CInv.move {u : Setup} {x y : Client} (h : CInv u x) (m : Move u x y) : CInv u y := by
  obtain ⟨h1, h2, h3, h4, h5, h6⟩ := h
  cases m with
  | same => exact ⟨h1, h2, h3, h4, h5, h6⟩
  | opened ho =>
    rw [h1 ho]
    unfold clientOpen
    split
    · rename_i hp
      exact ⟨by simp, by simp [hp], by simp, by simp, by simp, by simp⟩
    · rename_i hp
      exact ⟨by simp, by simp [hp], by simp, by simp, by simp, by simp⟩
    · rename_i hp
      exact ⟨by simp, by simp [hp], by simp, by simp, by simp, by simp⟩
  | gone ho =>
    refine ⟨by simp [clientGone, ho], by simpa [clientGone] using h2, by simp [clientGone], ?_, by simpa [clientGone] using h5, by simpa [clientGone] using h6⟩
    simp only [clientGone]
    split
    · simp
    · rename_i hn
      intro hl
      exact absurd ⟨(h4 hl).2.1, (h4 hl).2.2.2⟩ hn
  | said p s d hl hp =>
    obtain ⟨ho, ha, hd, _⟩ := h4 hl
    unfold clientSend
    rw [if_pos ha]
    split
    · exact ⟨by simp [ho], by simpa using h2, by simpa using h3, by simpa using h4, by simp [ha], by simp; omega⟩
    · exact ⟨h1, h2, h3, h4, h5, h6⟩
  | took r ho hd hr =>
    refine ⟨by simp [ho], h2, ?_, ?_, h5, h6⟩
    · intro _ ha _
      exact h3 ho ha hd
    · intro hl
      obtain ⟨_, ha, _, hp⟩ := h4 hl
      refine ⟨ho, ha, ?_, hp⟩
      cases r with
      | false => simp [hd]
      | true => have := hr rfl; rw [ha] at this; cases this
  | heard hb =>
    refine ⟨?_, h2, h3, h4, h5, Nat.succ_le_of_lt hb⟩
    intro ho
    have := h1 ho
    rw [this] at hb
    cases hb

/-! ### Invariants of the network -/

/-- The client's end and the server's end, as the specification sees them. -/
structure EndOk (u : Setup) (st : Status) (e : End) (x : Client) : Prop where
  closed : e = .closed ↔ st = .absent
  fresh : (e = .closed ∨ e = .connecting) ↔ x.isOpen = false
  pub : ∀ q, e = .publishing q → x.listed = true ∧ x.seq = some q
  other : e = .other → x.listed = false

/-- What the server makes of its connections at an event. -/
def statusAfter (prod cons : Bool) (setup : Nat → Setup) (n : Net) (st : Nat → Status) (e : NEv) (c : Nat) : Status :=
  match serverEv setup n e with
  | none => st c
  | some ev => (st c).next prod cons c ev

structure NInv (setup : Nat → Setup) (past : List Nat) (st : Nat → Status) (E : Nat → End) (arr : List (Nat × String)) (n : Net) : Prop where
  known : Known past n.server
  agrees : ∀ c, Agrees c (st c) n.server
  cinv : ∀ c, CInv (setup c) (n.client c)
  ends : ∀ c, EndOk (setup c) (st c) (E c) (n.client c)
  sub : ∀ c q, st c = .subscriber q → (setup c).path = [q, "subscribe"]
  pub : ∀ c q, st c = .publisher q → (setup c).path = [q, "publish"]
  handed : ∀ c, n.handed c = if (n.client c).action = some .subscribe then
    ((n.server.sentTo c).take (n.client c).taken).map (fun d => (sequenceOf (setup c).path, d)) else []
  taken : ∀ c, (n.client c).taken ≤ (n.server.sentTo c).length
  arrived : n.server.consumed = arr.map (fun a => (sequenceOf (setup a.1).path, a.2))
  prefixes : ∀ c, ofConn arr c <+: (n.client c).said.take (n.client c).heard
  all : ∀ c q, st c = .publisher q → ofConn arr c = (n.client c).said.take (n.client c).heard

theorem agrees_found {c : Nat} {st : Status} {s : Server} (h : Agrees c st s) : (s.find c).isSome = true ↔ st ≠ .absent := by
  cases st with
  | absent => simp [h.absent rfl]
  | subscriber q => simp [(h.sub q rfl).1]
  | publisher q => simp [h.pub q rfl]
  | gone => obtain ⟨x, hx, _⟩ := h.gone rfl; simp [hx]

theorem admitted_sub {prod cons : Bool} {path : List String} {q : String} (h : admitted prod cons path = .subscriber q) :
    path = [q, "subscribe"] := by
  unfold admitted at h
  split at h
  · split at h
    · rename_i hb; injection h with h; rw [h, hb.1]
    · split at h <;> cases h
  · cases h

theorem admitted_pub {prod cons : Bool} {path : List String} {q : String} (h : admitted prod cons path = .publisher q) :
    path = [q, "publish"] := by
  unfold admitted at h
  split at h
  · split at h
    · cases h
    · split at h
      · rename_i hb; injection h with h; rw [h, hb.1]
      · cases h
  · cases h

theorem admitted_ne_absent (prod cons : Bool) (path : List String) : admitted prod cons path ≠ .absent := by
  unfold admitted
  split
  · split
    · simp
    · split <;> simp
  · simp

theorem sequenceOf_two (q a : String) : sequenceOf [q, a] = q := rfl

/-- What the path says when a client reads it as publishing. -/
theorem parse_publish {path : List String} {s : Option String} (h : (s, some Action.publish) = parsePath path) :
    path = [sequenceOf path, "publish"] ∧ s = some (sequenceOf path) := by
  unfold parsePath at h
  split at h
  · rename_i q a
    injection h with hs ha
    unfold readAction at ha
    split at ha
    · rename_i hq; rw [hq]; exact ⟨rfl, hs⟩
    · split at ha <;> cases ha
  · injection h with _ ha; cases ha

theorem parse_subscribe {path : List String} {s : Option String} (h : (s, some Action.subscribe) = parsePath path) :
    path = [sequenceOf path, "subscribe"] ∧ s = some (sequenceOf path) := by
  unfold parsePath at h
  split at h
  · rename_i q a
    injection h with hs ha
    unfold readAction at ha
    split at ha
    · cases ha
    · split at ha
      · rename_i hq; rw [hq]; exact ⟨rfl, hs⟩
      · cases ha
  · injection h with _ ha; cases ha

theorem publish_parse (q : String) : parsePath [q, "publish"] = (some q, some .publish) := rfl

theorem subscribe_parse (q : String) : parsePath [q, "subscribe"] = (some q, some .subscribe) := by
  simp [parsePath, readAction]

theorem opens_serverEv {setup : Nat → Setup} {n : Net} {e : NEv} :
    (∀ ev, serverEv setup n e = some ev → opens [ev] = connects [e]) ∧ (serverEv setup n e = none → connects [e] = []) := by
  cases e with
  | connect c => exact ⟨fun ev h => (by injection h with h; subst h; rfl), fun h => (by cases h)⟩
  | upload c r =>
    refine ⟨fun ev h => ?_, fun _ => rfl⟩
    simp only [serverEv, Option.map_eq_some_iff] at h
    obtain ⟨d, _, rfl⟩ := h
    rfl
  | lost c => exact ⟨fun ev h => (by injection h with h; subst h; rfl), fun h => (by cases h)⟩
  | emit _ _ => exact ⟨fun ev h => (by injection h with h; subst h; rfl), fun h => (by cases h)⟩
  | emitLater _ _ => exact ⟨fun ev h => (by injection h with h; subst h; rfl), fun h => (by cases h)⟩
  | fire _ => exact ⟨fun ev h => (by injection h with h; subst h; rfl), fun h => (by cases h)⟩
  | accepted _ => exact ⟨fun ev h => (by cases h), fun _ => rfl⟩
  | clientLost _ => exact ⟨fun ev h => (by cases h), fun _ => rfl⟩
  | clientEmit _ _ _ => exact ⟨fun ev h => (by cases h), fun _ => rfl⟩
  | clientEmitLater _ _ _ => exact ⟨fun ev h => (by cases h), fun _ => rfl⟩
  | clientFire _ => exact ⟨fun ev h => (by cases h), fun _ => rfl⟩
  | deliver _ _ => exact ⟨fun ev h => (by cases h), fun _ => rfl⟩

/-- What can make a connection a subscriber or a publisher. -/
theorem next_cases (prod cons : Bool) (c : Nat) (st : Status) (ev : Ev) :
    (∃ p, ev = .opened c p ∧ st.next prod cons c ev = admitted prod cons p) ∨ st.next prod cons c ev = st ∨
      (st ≠ .absent ∧ st.next prod cons c ev = .gone) := by
  cases ev with
  | opened c' p =>
    by_cases hc : c' = c
    · subst hc; exact .inl ⟨p, rfl, by simp [Status.next]⟩
    · exact .inr (.inl (by simp [Status.next, hc]))
  | lost c' =>
    by_cases h : c' = c ∧ st ≠ .absent
    · exact .inr (.inr ⟨h.2, by simp only [Status.next, if_pos h]⟩)
    · exact .inr (.inl (by simp only [Status.next, if_neg h]))
  | message c' d r =>
    by_cases hc : c' = c
    · subst hc
      cases st with
      | absent => exact .inr (.inl (by simp [Status.next]))
      | gone => exact .inr (.inl (by simp [Status.next]))
      | subscriber q => exact .inr (.inr ⟨by simp, by simp [Status.next]⟩)
      | publisher q =>
        cases r with
        | false => exact .inr (.inl (by simp [Status.next]))
        | true => exact .inr (.inr ⟨by simp, by simp [Status.next]⟩)
    · exact .inr (.inl (by simp [Status.next, hc]))
  | emit _ _ => exact .inr (.inl rfl)
  | emitLater _ _ => exact .inr (.inl rfl)
  | fire _ => exact .inr (.inl rfl)

/-- The same for an event of the network. -/
theorem statusAfter_cases (prod cons : Bool) (setup : Nat → Setup) (n : Net) (st : Nat → Status) (e : NEv) (c : Nat) :
    (e = .connect c ∧ statusAfter prod cons setup n st e c = admitted prod cons (setup c).path) ∨
    statusAfter prod cons setup n st e c = st c ∨
      (st c ≠ .absent ∧ statusAfter prod cons setup n st e c = .gone) := by
  unfold statusAfter
  cases hs : serverEv setup n e with
  | none => exact .inr (.inl rfl)
  | some ev =>
    rcases next_cases prod cons c (st c) ev with ⟨p, rfl, h⟩ | h | h
    · left
      cases e with
      | connect c' =>
        injection hs with hs
        injection hs with h1 h2
        subst h1; subst h2
        exact ⟨rfl, h⟩
      | upload c' r =>
        simp only [serverEv, Option.map_eq_some_iff] at hs
        obtain ⟨d, _, hd⟩ := hs
        cases hd
      | _ => cases hs
    · exact .inr (.inl h)
    · exact .inr (.inr h)

theorem EndOk.same {u : Setup} {st st' : Status} {e : End} {x y : Client} (h : EndOk u st e x) (hst : st' = .absent ↔ st = .absent)
    (ho : y.isOpen = x.isOpen) (hl : y.listed = x.listed) (hs : y.seq = x.seq) : EndOk u st' e y := by
  obtain ⟨h1, h2, h3, h4⟩ := h
  exact ⟨h1.trans hst.symm, by rw [ho]; exact h2, by rw [hl, hs]; exact h3, by rw [hl]; exact h4⟩

/-- The moves other than opening and losing keep what the end of a connection is. -/
theorem send_keeps (s d : String) {x : Client} {u : Setup} (h : CInv u x) (hl : x.listed = true) :
    (clientSend s d x).isOpen = x.isOpen ∧ (clientSend s d x).listed = x.listed ∧ (clientSend s d x).seq = x.seq ∧
      (clientSend s d x).said = x.said ++ (if x.seq = some s then [d] else []) := by
  obtain ⟨_, ha, hd, _⟩ := h.listed hl
  unfold clientSend
  rw [if_pos ha]
  by_cases hs : x.seq = some s
  · simp [hs, hd]
  · simp [hs]

theorem ends_step (prod cons : Bool) {setup : Nat → Setup} {past : List Nat} {st : Nat → Status} {E : Nat → End}
    {arr : List (Nat × String)} {n : Net} (h : NInv setup past st E arr n) (e : NEv) (he : ∀ c ∈ connects [e], c ∉ past) (c : Nat) :
    EndOk (setup c) (statusAfter prod cons setup n st e c) ((E c).next (setup c) c e) ((clientStep setup n e).client c) := by
  have hend := h.ends c
  have hci := h.cinv c
  have hwrite : ∀ p s d, EndOk (setup c) (st c) (E c) ((clientWrite setup p s d n).client c) := by
    intro p s d
    simp only [clientWrite]
    split
    · rename_i hl
      obtain ⟨k1, k2, k3, _⟩ := send_keeps s d hci hl.1
      exact hend.same Iff.rfl k1 k2 k3
    · exact hend
  cases e with
  | connect c' =>
    by_cases hc : c' = c
    · subst hc
      have hnone : st c' = .absent := by
        have h1 := agrees_found (h.agrees c')
        rw [find_none_of_past h.known (he c' (by simp [connects]))] at h1
        cases hs : st c' with
        | absent => rfl
        | _ => rw [hs] at h1; simp at h1
      have hclosed := hend.closed.2 hnone
      have hst : statusAfter prod cons setup n st (.connect c') c' = admitted prod cons (setup c').path := by
        simp [statusAfter, serverEv, Status.next]
      rw [hst, End.next, if_pos ⟨rfl, hclosed⟩]
      have hfr := hend.fresh.1 (.inl hclosed)
      exact ⟨⟨fun h => (by cases h), fun h => absurd h (admitted_ne_absent _ _ _)⟩, ⟨fun _ => hfr, fun _ => .inr rfl⟩, fun q hq => (by cases hq),
        fun hq => (by cases hq)⟩
    · have hst : statusAfter prod cons setup n st (.connect c') c = st c := by simp [statusAfter, serverEv, Status.next, hc]
      rw [hst, End.next, if_neg (fun hh => hc hh.1)]
      exact hend
  | accepted c' =>
    have hst : statusAfter prod cons setup n st (.accepted c') c = st c := rfl
    rw [hst]
    simp only [clientStep, End.next]
    by_cases hc : c' = c
    · subst hc
      by_cases hE : E c' = .connecting
      · have ho := hend.fresh.1 (.inr hE)
        have hne : st c' ≠ .absent := fun hs => by
          have := hend.closed.2 hs
          rw [hE] at this; cases this
        have hcond : (n.server.find c').isSome = true ∧ (n.client c').isOpen = false := ⟨(agrees_found (h.agrees c')).2 hne, ho⟩
        rw [if_pos hcond, if_pos ⟨rfl, hE⟩, change_eq, hci.fresh ho]
        by_cases hp : (setup c').path = [sequenceOf (setup c').path, "publish"] ∧ (setup c').producer.isSome = true
        · rw [if_pos hp]
          have hopen : clientOpen (setup c') {} = { isOpen := true, seq := some (sequenceOf (setup c').path), action := some .publish, listed := true } := by
            have hpp : parsePath (setup c').path = (some (sequenceOf (setup c').path), some .publish) := by rw [hp.1]; rfl
            unfold clientOpen
            rw [hpp]
            simp [hp.2]
          rw [hopen]
          exact ⟨⟨fun h => (by cases h), fun h => absurd h hne⟩, ⟨fun h => (by rcases h with h | h <;> cases h), fun h => (by cases h)⟩,
            fun q hq => (by injection hq with hq; exact ⟨rfl, by rw [hq]⟩), fun h => (by cases h)⟩
        · rw [if_neg hp]
          have hopen : (clientOpen (setup c') {}).isOpen = true ∧ (clientOpen (setup c') {}).listed = false := by
            unfold clientOpen
            split
            · exact ⟨rfl, rfl⟩
            · exact ⟨rfl, rfl⟩
            · rename_i hpp
              refine ⟨rfl, ?_⟩
              have := parse_publish hpp.symm
              simp only [Bool.eq_false_iff]
              exact fun hh => hp ⟨this.1, hh⟩
          exact ⟨⟨fun h => (by cases h), fun h => absurd h hne⟩,
            ⟨fun h => (by rcases h with h | h <;> cases h), fun h => (by rw [hopen.1] at h; cases h)⟩, fun q hq => (by cases hq), fun _ => hopen.2⟩
      · rw [if_neg (fun hh => hE hh.2)]
        rw [if_neg]
        · exact hend
        · rintro ⟨h1, h2⟩
          have hn := (agrees_found (h.agrees c')).1 h1
          rcases hend.fresh.2 h2 with h3 | h3
          · exact hn (hend.closed.1 h3)
          · exact hE h3
    · rw [if_neg (fun hh => hc hh.1)]
      split
      · rw [change_ne n (Ne.symm hc)]; exact hend
      · exact hend
  | clientLost c' =>
    have hst : statusAfter prod cons setup n st (.clientLost c') c = st c := rfl
    rw [hst]
    simp only [clientStep, End.next]
    by_cases hc : c' = c
    · subst hc
      by_cases ho : (n.client c').isOpen = true
      · have hE : E c' ≠ .closed ∧ E c' ≠ .connecting := by
          constructor
          · intro hh; have := hend.fresh.1 (.inl hh); rw [ho] at this; cases this
          · intro hh; have := hend.fresh.1 (.inr hh); rw [ho] at this; cases this
        rw [if_pos ho, if_pos ⟨rfl, hE⟩, change_eq]
        refine ⟨⟨fun h => (by cases h), fun h => absurd (hend.closed.2 h) hE.1⟩,
          ⟨fun h => (by rcases h with h | h <;> cases h), fun h => ?_⟩, fun q hq => (by cases hq), fun _ => ?_⟩
        · simp only [clientGone, ho] at h; cases h
        · simp only [clientGone]
          split
          · rfl
          · rename_i hn
            by_cases hl : (n.client c').listed = true
            · obtain ⟨_, ha, _, hp⟩ := hci.listed hl
              exact absurd ⟨ha, hp⟩ hn
            · simpa using hl
      · have ho' : (n.client c').isOpen = false := by simpa using ho
        rw [if_neg ho, if_neg]
        · exact hend
        · rintro ⟨_, h1, h2⟩
          rcases hend.fresh.2 ho' with h3 | h3
          · exact h1 h3
          · exact h2 h3
    · rw [if_neg (fun hh => hc hh.1)]
      split
      · rw [change_ne n (Ne.symm hc)]; exact hend
      · exact hend
  | lost c' =>
    refine hend.same ?_ rfl rfl rfl
    rcases statusAfter_cases prod cons setup n st (.lost c') c with ⟨h1, _⟩ | h1 | ⟨h1, h2⟩
    · cases h1
    · rw [h1]
    · rw [h2]; exact ⟨fun h => (by cases h), fun h => absurd h h1⟩
  | upload c' r =>
    have hst : statusAfter prod cons setup n st (.upload c' r) c = .absent ↔ st c = .absent := by
      rcases statusAfter_cases prod cons setup n st (.upload c' r) c with ⟨h1, _⟩ | h1 | ⟨h1, h2⟩
      · cases h1
      · rw [h1]
      · rw [h2]; exact ⟨fun h => (by cases h), fun h => absurd h h1⟩
    simp only [clientStep, End.next]
    split
    · by_cases hc : c = c'
      · subst hc; rw [change_eq]; exact hend.same hst rfl rfl rfl
      · rw [change_ne n hc]; exact hend.same hst rfl rfl rfl
    · exact hend.same hst rfl rfl rfl
  | emit s d => exact hend.same (by rw [show statusAfter prod cons setup n st (.emit s d) c = st c from rfl]) rfl rfl rfl
  | emitLater s d => exact hend.same (by rw [show statusAfter prod cons setup n st (.emitLater s d) c = st c from rfl]) rfl rfl rfl
  | fire i => exact hend.same (by rw [show statusAfter prod cons setup n st (.fire i) c = st c from rfl]) rfl rfl rfl
  | clientEmit p s d => exact hwrite p s d
  | clientEmitLater p s d => exact hend
  | clientFire i =>
    simp only [clientStep, End.next]
    split
    · exact hend
    · rename_i p s d _; exact hwrite p s d
  | deliver c' r =>
    simp only [clientStep, End.next]
    split
    · split
      · exact hend
      · by_cases hc : c = c'
        · subst hc
          rw [hears_client]
          exact hend.same Iff.rfl rfl rfl rfl
        · rw [hears_other c' c hc]; exact hend
    · exact hend

/-! ### One event -/

theorem sentTo_step {past : List Nat} {s : Server} (hk : Known past s) (prod cons : Bool) {c : Nat} {st : Status} (h : Agrees c st s) (ev : Ev) :
    (step prod cons s ev).sentTo c = s.sentTo c ++ forOne (published s.pending ev) st := step_sent hk prod cons h ev

/-- What an event appends to the messages sent on a connection. -/
theorem sentTo_netStep (prod cons : Bool) {setup : Nat → Setup} {past : List Nat} {st : Nat → Status} {E : Nat → End}
    {arr : List (Nat × String)} {n : Net} (h : NInv setup past st E arr n) (e : NEv) (c : Nat) :
    n.server.sentTo c <+: (netStep prod cons setup n e).server.sentTo c := by
  simp only [netStep]
  cases hs : serverEv setup n e with
  | none => exact List.prefix_rfl
  | some ev => simp only; rw [sentTo_step h.known prod cons (h.agrees c) ev]; exact List.prefix_append _ _

/-- The action of a client is set once. -/
theorem Move.action {u : Setup} {x y : Client} (hx : CInv u x) (m : Move u x y) :
    (y.action = x.action ∧ (y.taken = x.taken ∨ y.taken = x.taken + 1)) ∨ (x = {} ∧ y.taken = 0) := by
  cases m with
  | same => exact .inl ⟨rfl, .inl rfl⟩
  | opened ho =>
    right
    refine ⟨hx.fresh ho, ?_⟩
    rw [hx.fresh ho]
    unfold clientOpen
    split <;> rfl
  | gone _ => exact .inl ⟨rfl, .inl rfl⟩
  | said p s d hl hp =>
    left
    unfold clientSend
    split
    · split <;> exact ⟨rfl, .inl rfl⟩
    · exact ⟨rfl, .inl rfl⟩
  | took r _ _ _ => exact .inl ⟨rfl, .inr rfl⟩
  | heard _ => exact .inl ⟨rfl, .inl rfl⟩

theorem take_prefix {α : Type} {l m : List α} (h : l <+: m) {k : Nat} (hk : k ≤ l.length) : m.take k = l.take k := by
  obtain ⟨t, rfl⟩ := h
  rw [List.take_append_of_le_length hk]

/-- Only deliveries add to what the consumers got, and they count what was taken. -/
theorem handed_step (setup : Nat → Setup) (n : Net) (e : NEv) (c : Nat) (hci : CInv (setup c) (n.client c)) :
    ((clientStep setup n e).handed c = n.handed c ∧ ((clientStep setup n e).client c).taken = (n.client c).taken) ∨
    ∃ d, (n.server.sentTo c)[(n.client c).taken]? = some d ∧ ((clientStep setup n e).client c).taken = (n.client c).taken + 1 ∧
      ((clientStep setup n e).client c).action = (n.client c).action ∧
      (clientStep setup n e).handed c = n.handed c ++ (if (n.client c).action = some .subscribe then [(sequenceOf (setup c).path, d)] else []) := by
  have hch : ∀ (c' : Nat) (f : Client → Client), (∀ x, (f x).taken = x.taken) →
      ((n.change c' f).handed c = n.handed c ∧ ((n.change c' f).client c).taken = (n.client c).taken) := by
    intro c' f hf
    refine ⟨rfl, ?_⟩
    by_cases hc : c = c'
    · subst hc; rw [change_eq, hf]
    · rw [change_ne n hc]
  have hw : ∀ p s d, ((clientWrite setup p s d n).client c).taken = (n.client c).taken := by
    intro p s d
    simp only [clientWrite]
    split
    · unfold clientSend
      split
      · split <;> rfl
      · rfl
    · rfl
  cases e with
  | accepted c' =>
    left
    simp only [clientStep]
    split
    · refine hch c' _ (fun x => ?_)
      unfold clientOpen
      split <;> rfl
    · exact ⟨rfl, rfl⟩
  | clientLost c' =>
    left
    simp only [clientStep]
    split
    · exact hch c' _ (fun x => rfl)
    · exact ⟨rfl, rfl⟩
  | clientEmit p s d => exact .inl ⟨rfl, hw p s d⟩
  | clientFire i =>
    left
    simp only [clientStep]
    split
    · exact ⟨rfl, rfl⟩
    · rename_i p s d _; exact ⟨rfl, hw p s d⟩
  | upload c' r =>
    left
    simp only [clientStep]
    split
    · exact hch c' _ (fun x => rfl)
    · exact ⟨rfl, rfl⟩
  | deliver c' r =>
    simp only [clientStep]
    split
    · rename_i hcond
      cases hg : (n.server.sentTo c')[(n.client c').taken]? with
      | none => exact .inl ⟨rfl, rfl⟩
      | some d =>
        simp only
        by_cases hc : c = c'
        · subst hc
          right
          refine ⟨d, hg, by rw [hears_client], by rw [hears_client], ?_⟩
          by_cases ha : (n.client c).action = some .subscribe
          · have hf := hci.fed hcond.1 ha hcond.2
            have hr := hci.read hcond.1
            rw [ha] at hr
            have hseq := (parse_subscribe hr).2
            simp [clientHears, ha, hf, hseq, Net.handed, Net.change]
          · simp [clientHears, ha, Net.handed, Net.change]
        · left
          refine ⟨?_, by rw [hears_other c' c hc]⟩
          unfold clientHears
          simp only
          split
          · split
            · have : c' ≠ c := Ne.symm hc
              simp [Net.handed, Net.change, this]
            · rfl
          · rfl
    · exact .inl ⟨rfl, rfl⟩
  | connect _ => exact .inl ⟨rfl, rfl⟩
  | lost _ => exact .inl ⟨rfl, rfl⟩
  | emit _ _ => exact .inl ⟨rfl, rfl⟩
  | emitLater _ _ => exact .inl ⟨rfl, rfl⟩
  | fire _ => exact .inl ⟨rfl, rfl⟩
  | clientEmitLater _ _ _ => exact .inl ⟨rfl, rfl⟩

/-- What reaches the server's consumer at an event, with the connection it comes from. -/
def arrives (setup : Nat → Setup) (n : Net) (st : Nat → Status) (e : NEv) : List (Nat × String) :=
  match serverEv setup n e with
  | some (.message c d _) => (match st c with | .publisher _ => [(c, d)] | _ => [])
  | _ => []

theorem arrives_other {setup : Nat → Setup} {n : Net} {st : Nat → Status} {e : NEv} {arr : List (Nat × String)} {c : Nat}
    (hno : ∀ d r, serverEv setup n e ≠ some (.message c d r)) : ofConn (arr ++ arrives setup n st e) c = ofConn arr c := by
  have : ofConn (arrives setup n st e) c = [] := by
    unfold arrives
    split
    · rename_i c' d r hs
      have hc : c' ≠ c := fun hh => hno d r (by rw [hs, hh])
      split
      · simp [ofConn, hc]
      · rfl
    · rfl
  simp only [ofConn, List.filter_append, List.map_append] at this ⊢
  rw [this, List.append_nil]

/-- What is said grows at the end, and what was heard is the front of it. -/
theorem said_step (setup : Nat → Setup) (n : Net) (e : NEv) (c : Nat) (hci : CInv (setup c) (n.client c)) :
    (n.client c).said <+: ((clientStep setup n e).client c).said ∧
    ((((clientStep setup n e).client c).heard = (n.client c).heard ∧ ∀ d r, serverEv setup n e ≠ some (.message c d r)) ∨
     ∃ d r, serverEv setup n e = some (.message c d r) ∧ (n.client c).said[(n.client c).heard]? = some d ∧
       ((clientStep setup n e).client c).heard = (n.client c).heard + 1 ∧ ((clientStep setup n e).client c).said = (n.client c).said) := by
  have hno : ∀ e', (∀ c' r, e' ≠ NEv.upload c' r) → ∀ d r, serverEv setup n e' ≠ some (.message c d r) := by
    intro e' h d r hh
    cases e' with
    | upload c' r' => exact h c' r' rfl
    | _ => cases hh
  have hm := moves setup n e c
  by_cases hup : ∃ c' r, e = NEv.upload c' r
  · obtain ⟨c', r, rfl⟩ := hup
    simp only [clientStep, serverEv]
    by_cases hc : c' = c
    · subst hc
      cases hg : (n.client c').said[(n.client c').heard]? with
      | none =>
        rw [if_neg (by rw [List.getElem?_eq_none_iff] at hg; omega)]
        exact ⟨List.prefix_rfl, .inl ⟨rfl, fun d r h => (by cases h)⟩⟩
      | some d =>
        have hlt : (n.client c').heard < (n.client c').said.length := by
          by_cases hl : (n.client c').heard < (n.client c').said.length
          · exact hl
          · rw [List.getElem?_eq_none (by omega)] at hg; cases hg
        rw [if_pos hlt, change_eq]
        exact ⟨List.prefix_rfl, .inr ⟨d, r, rfl, rfl, rfl, rfl⟩⟩
    · have hx : (if (n.client c').heard < (n.client c').said.length then n.change c' (fun x => { x with heard := x.heard + 1 }) else n).client c
          = n.client c := by
        split
        · rw [change_ne n (Ne.symm hc)]
        · rfl
      rw [hx]
      refine ⟨List.prefix_rfl, .inl ⟨rfl, fun d r h => ?_⟩⟩
      cases hg : (n.client c').said[(n.client c').heard]? with
      | none => rw [hg] at h; cases h
      | some d' => rw [hg] at h; injection h with h; injection h with h _; exact hc h
  · have hne : ∀ c' r, e ≠ NEv.upload c' r := fun c' r h => hup ⟨c', r, h⟩
    have hs := hno e hne
    have hheard : (n.client c).said <+: ((clientStep setup n e).client c).said ∧ ((clientStep setup n e).client c).heard = (n.client c).heard := by
      have hw : ∀ p s d, (n.client c).said <+: ((clientWrite setup p s d n).client c).said ∧
          ((clientWrite setup p s d n).client c).heard = (n.client c).heard := by
        intro p s d
        simp only [clientWrite]
        split
        · unfold clientSend
          split
          · split
            · exact ⟨List.prefix_append _ _, rfl⟩
            · exact ⟨List.prefix_rfl, rfl⟩
          · exact ⟨List.prefix_rfl, rfl⟩
        · exact ⟨List.prefix_rfl, rfl⟩
      have hch : ∀ (c' : Nat) (f : Client → Client), (∀ x, (f x).said = x.said ∧ (f x).heard = x.heard) →
          (n.client c).said <+: ((n.change c' f).client c).said ∧ ((n.change c' f).client c).heard = (n.client c).heard := by
        intro c' f hf
        by_cases hc : c = c'
        · subst hc; rw [change_eq, (hf _).1, (hf _).2]; exact ⟨List.prefix_rfl, rfl⟩
        · rw [change_ne n hc]; exact ⟨List.prefix_rfl, rfl⟩
      cases e with
      | upload c' r => exact absurd rfl (hne c' r)
      | accepted c' =>
        simp only [clientStep]
        split
        · refine hch c' _ (fun x => ?_)
          unfold clientOpen
          split <;> exact ⟨rfl, rfl⟩
        · exact ⟨List.prefix_rfl, rfl⟩
      | clientLost c' =>
        simp only [clientStep]
        split
        · exact hch c' _ (fun x => ⟨rfl, rfl⟩)
        · exact ⟨List.prefix_rfl, rfl⟩
      | clientEmit p s d => exact hw p s d
      | clientFire i =>
        simp only [clientStep]
        split
        · exact ⟨List.prefix_rfl, rfl⟩
        · rename_i p s d _; exact hw p s d
      | deliver c' r =>
        simp only [clientStep]
        split
        · split
          · exact ⟨List.prefix_rfl, rfl⟩
          · by_cases hc : c = c'
            · subst hc; rw [hears_client]; exact ⟨List.prefix_rfl, rfl⟩
            · rw [hears_other c' c hc]; exact ⟨List.prefix_rfl, rfl⟩
        · exact ⟨List.prefix_rfl, rfl⟩
      | connect _ => exact ⟨List.prefix_rfl, rfl⟩
      | lost _ => exact ⟨List.prefix_rfl, rfl⟩
      | emit _ _ => exact ⟨List.prefix_rfl, rfl⟩
      | emitLater _ _ => exact ⟨List.prefix_rfl, rfl⟩
      | fire _ => exact ⟨List.prefix_rfl, rfl⟩
      | clientEmitLater _ _ _ => exact ⟨List.prefix_rfl, rfl⟩
    exact ⟨hheard.1, .inl ⟨hheard.2, hs⟩⟩

theorem NInv.step (prod cons : Bool) {setup : Nat → Setup} {past : List Nat} {st : Nat → Status} {E : Nat → End}
    {arr : List (Nat × String)} {n : Net} (h : NInv setup past st E arr n) (e : NEv) (he : ∀ c ∈ connects [e], c ∉ past) :
    NInv setup (past ++ connects [e]) (statusAfter prod cons setup n st e) (fun c => (E c).next (setup c) c e)
      (arr ++ arrives setup n st e) (netStep prod cons setup n e) := by
  have hcl : ∀ c, (netStep prod cons setup n e).client c = (clientStep setup n e).client c := fun _ => rfl
  have hcinv : ∀ c, CInv (setup c) ((clientStep setup n e).client c) := fun c => (h.cinv c).move (moves setup n e c)
  have hpref := sentTo_netStep prod cons h e
  refine ⟨?_, ?_, hcinv, ends_step prod cons h e he, ?_, ?_, ?_, ?_, ?_, ?_, ?_⟩
  · -- known
    simp only [netStep]
    cases hs : serverEv setup n e with
    | none => rw [opens_serverEv.2 hs, List.append_nil]; exact h.known
    | some ev =>
      rw [← opens_serverEv.1 ev hs]
      exact h.known.step prod cons ev (fun c hc => he c (by rw [← opens_serverEv.1 ev hs]; exact hc))
  · -- agrees
    intro c
    simp only [netStep, statusAfter]
    cases hs : serverEv setup n e with
    | none => exact h.agrees c
    | some ev => exact (h.agrees c).step h.known prod cons ev (fun c hc => he c (by rw [← opens_serverEv.1 ev hs]; exact hc))
  · intro c q hq
    rcases statusAfter_cases prod cons setup n st e c with ⟨_, h1⟩ | h1 | ⟨_, h1⟩
    · rw [h1] at hq; exact admitted_sub hq
    · rw [h1] at hq; exact h.sub c q hq
    · rw [h1] at hq; cases hq
  · intro c q hq
    rcases statusAfter_cases prod cons setup n st e c with ⟨_, h1⟩ | h1 | ⟨_, h1⟩
    · rw [h1] at hq; exact admitted_pub hq
    · rw [h1] at hq; exact h.pub c q hq
    · rw [h1] at hq; cases hq
  · -- handed
    intro c
    have hh : (netStep prod cons setup n e).handed c = (clientStep setup n e).handed c := rfl
    rw [hh, hcl]
    rcases handed_step setup n e c (h.cinv c) with ⟨h1, h2⟩ | ⟨d, h1, h2, h3, h4⟩
    · rw [h1, h2, h.handed c, take_prefix (hpref c) (h.taken c)]
      rcases (moves setup n e c).action (h.cinv c) with ⟨ha, _⟩ | ⟨hx, _⟩
      · rw [ha]
      · rw [hx]; simp
    · rw [h4, h2, h3, h.handed c]
      by_cases ha : (n.client c).action = some .subscribe
      · rw [if_pos ha, if_pos ha, if_pos ha]
        have hlt : (n.client c).taken < (n.server.sentTo c).length := by
          by_cases hl : (n.client c).taken < (n.server.sentTo c).length
          · exact hl
          · rw [List.getElem?_eq_none (by omega)] at h1; cases h1
        rw [take_prefix (hpref c) (by omega), List.take_add_one, h1]
        simp
      · rw [if_neg ha, if_neg ha, if_neg ha]; rfl
  · -- taken
    intro c
    rw [hcl]
    have hle := (hpref c).length_le
    have ht := h.taken c
    rcases handed_step setup n e c (h.cinv c) with ⟨_, h2⟩ | ⟨d, h1, h2, _, _⟩
    · rw [h2]; omega
    · rw [h2]
      have hlt : (n.client c).taken < (n.server.sentTo c).length := by
        by_cases hl : (n.client c).taken < (n.server.sentTo c).length
        · exact hl
        · rw [List.getElem?_eq_none (by omega)] at h1; cases h1
      omega
  · -- arrived
    rw [List.map_append, ← h.arrived]
    simp only [netStep, arrives]
    cases hs : serverEv setup n e with
    | none => simp
    | some ev =>
      simp only
      rw [step_consumed prod cons n.server st h.agrees ev]
      cases ev with
      | message c d r =>
        simp only [fromOne]
        cases hst : st c with
        | publisher q =>
          have := h.pub c q hst
          simp [this, sequenceOf]
        | _ => simp
      | _ => simp [fromOne]
  · -- prefixes
    intro c
    rw [hcl]
    have hp := h.prefixes c
    have hb := (h.cinv c).bound
    rcases said_step setup n e c (h.cinv c) with ⟨hsaid, ⟨hheard, hno⟩ | ⟨d, r, hev, hd, hheard, hsame⟩⟩
    · have : ofConn (arr ++ arrives setup n st e) c = ofConn arr c := arrives_other hno
      rw [this, hheard, take_prefix hsaid hb]
      exact hp
    · rw [hheard, hsame, List.take_add_one, hd]
      have : ofConn (arr ++ arrives setup n st e) c = ofConn arr c ++ ofConn (arrives setup n st e) c := by simp [ofConn]
      rw [this]
      simp only [arrives, hev]
      cases hst : st c with
      | publisher q =>
        rw [h.all c q hst]
        simp [ofConn]
      | _ =>
        simp only [ofConn, List.filter_nil, List.map_nil, List.append_nil]
        exact hp.trans (List.prefix_append _ _)
  · -- all
    intro c q hq
    rw [hcl]
    have hb := (h.cinv c).bound
    rcases statusAfter_cases prod cons setup n st e c with ⟨h0, h1⟩ | h1 | ⟨_, h1⟩
    · subst h0
      have hs : serverEv setup n (.connect c) = some (.opened c (setup c).path) := rfl
      have harr : arrives setup n st (.connect c) = [] := by simp [arrives, hs]
      have hcl' : (clientStep setup n (.connect c)).client c = n.client c := rfl
      rw [harr, List.append_nil, hcl']
      have hfresh : (n.client c) = {} := by
        have hnone := find_none_of_past h.known (he c (by simp [connects]))
        have h2 := agrees_found (h.agrees c)
        rw [hnone] at h2
        have hab : st c = .absent := by
          cases hs : st c with
          | absent => rfl
          | _ => rw [hs] at h2; simp at h2
        exact (h.cinv c).fresh ((h.ends c).fresh.1 (.inl ((h.ends c).closed.2 hab)))
      have hp := h.prefixes c
      rw [hfresh] at hp ⊢
      simpa using hp
    · rw [h1] at hq
      rcases said_step setup n e c (h.cinv c) with ⟨hsaid, ⟨hheard, hno⟩ | ⟨d, r, hev, hd, hheard, hsame⟩⟩
      · have : ofConn (arr ++ arrives setup n st e) c = ofConn arr c := arrives_other hno
        rw [this, hheard, take_prefix hsaid hb]
        exact h.all c q hq
      · rw [hheard, hsame, List.take_add_one, hd]
        have : ofConn (arr ++ arrives setup n st e) c = ofConn arr c ++ ofConn (arrives setup n st e) c := by simp [ofConn]
        rw [this]
        simp only [arrives, hev, hq]
        rw [h.all c q hq]
        simp [ofConn]
    · rw [h1] at hq; cases hq

/-! ### Every series of events -/

theorem listed_publishing {u : Setup} {st : Status} {e : End} {x : Client} (h : EndOk u st e x) (hx : CInv u x) (hl : x.listed = true) :
    ∃ q, e = .publishing q ∧ x.seq = some q := by
  have ho := (hx.listed hl).1
  cases e with
  | closed => have := h.fresh.1 (.inl rfl); rw [ho] at this; cases this
  | connecting => have := h.fresh.1 (.inr rfl); rw [ho] at this; cases this
  | other => have := h.other rfl; rw [hl] at this; cases this
  | publishing q => exact ⟨q, rfl, (h.pub q rfl).2⟩

theorem said_exact {setup : Nat → Setup} {past : List Nat} {st : Nat → Status} {E : Nat → End} {arr : List (Nat × String)} {n : Net}
    (h : NInv setup past st E arr n) (e : NEv) (c : Nat) :
    ((clientStep setup n e).client c).said = (n.client c).said ++ toSay (setup c) (emitted n.waiting e) (E c) := by
  have hci := h.cinv c
  have hw : ∀ p s d, ((clientWrite setup p s d n).client c).said = (n.client c).said ++ toSay (setup c) (some (p, s, d)) (E c) := by
    intro p s d
    simp only [clientWrite]
    by_cases hl : (n.client c).listed = true
    · obtain ⟨q, hE, hq⟩ := listed_publishing (h.ends c) hci hl
      rw [hE]
      by_cases hp : (setup c).producer = some p
      · rw [if_pos ⟨hl, hp⟩, (send_keeps s d hci hl).2.2.2, hq]
        simp only [toSay, hp, true_and, Option.some.injEq]
        by_cases hs : s = q
        · subst hs; rfl
        · rw [if_neg hs, if_neg (fun hh => hs hh.symm)]
      · rw [if_neg (fun hh => hp hh.2)]
        simp [toSay, hp]
    · rw [if_neg (fun hh => hl hh.1)]
      cases hE : E c with
      | publishing q => exact absurd ((h.ends c).pub q hE).1 hl
      | _ => simp [toSay]
  have hnone : ∀ en, toSay (setup c) none en = [] := by intro en; cases en <;> rfl
  cases e with
  | clientEmit p s d => exact hw p s d
  | clientFire i =>
    simp only [clientStep, emitted]
    cases hg : n.waiting[i]? with
    | none => simp [hnone]
    | some t => exact hw t.1 t.2.1 t.2.2
  | accepted c' =>
    simp only [clientStep, emitted, hnone, List.append_nil]
    split
    · by_cases hc : c = c'
      · subst hc
        rw [change_eq]
        unfold clientOpen
        split <;> rfl
      · rw [change_ne n hc]
    · rfl
  | clientLost c' =>
    simp only [clientStep, emitted, hnone, List.append_nil]
    split
    · by_cases hc : c = c'
      · subst hc; rw [change_eq]; rfl
      · rw [change_ne n hc]
    · rfl
  | deliver c' r =>
    simp only [clientStep, emitted, hnone, List.append_nil]
    split
    · split
      · rfl
      · by_cases hc : c = c'
        · subst hc; rw [hears_client]
        · rw [hears_other c' c hc]
    · rfl
  | upload c' r =>
    simp only [clientStep, emitted, hnone, List.append_nil]
    split
    · by_cases hc : c = c'
      · subst hc; rw [change_eq]
      · rw [change_ne n hc]
    · rfl
  | connect _ => simp [clientStep, emitted, hnone]
  | lost _ => simp [clientStep, emitted, hnone]
  | emit _ _ => simp [clientStep, emitted, hnone]
  | emitLater _ _ => simp [clientStep, emitted, hnone]
  | fire _ => simp [clientStep, emitted, hnone]
  | clientEmitLater _ _ _ => simp [clientStep, emitted, hnone]

theorem waiting_step (prod cons : Bool) (setup : Nat → Setup) (n : Net) (e : NEv) :
    (netStep prod cons setup n e).waiting = delayedAfter n.waiting e := by
  simp only [netStep]
  cases e with
  | accepted c' =>
    simp only [clientStep, delayedAfter]
    split <;> rfl
  | clientLost c' =>
    simp only [clientStep, delayedAfter]
    split <;> rfl
  | clientFire i =>
    simp only [clientStep, delayedAfter]
    cases hg : n.waiting[i]? with
    | none => rw [List.eraseIdx_of_length_le (by simpa using hg)]
    | some t => rfl
  | deliver c' r =>
    simp only [clientStep, delayedAfter]
    split
    · split
      · rfl
      · unfold clientHears
        simp only
        split
        · split <;> rfl
        · rfl
    · rfl
  | upload c' r =>
    simp only [clientStep, delayedAfter]
    split <;> rfl
  | clientEmit _ _ _ => rfl
  | connect _ => rfl
  | lost _ => rfl
  | emit _ _ => rfl
  | emitLater _ _ => rfl
  | fire _ => rfl
  | clientEmitLater _ _ _ => rfl

/-- A connection that is no subscriber and whose path is not one of subscribers gets nothing. -/
theorem inbox_nil (prod cons : Bool) (setup : Nat → Setup) (c : Nat) (hp : ∀ q, (setup c).path ≠ [q, "subscribe"]) :
    ∀ (evs : List NEv) (st : Status) (w : List (String × String)), (∀ q, st ≠ .subscriber q) →
      inbox prod cons c st w (serverSide setup evs) = [] := by
  have key : ∀ (evs : List Ev), (∀ p, .opened c p ∈ evs → p = (setup c).path) → ∀ (st : Status) (w : List (String × String)),
      (∀ q, st ≠ .subscriber q) → inbox prod cons c st w evs = [] := by
    intro evs
    induction evs with
    | nil => intros; rfl
    | cons ev evs ih =>
      intro hev st w hst
      simp only [inbox]
      have h1 : forOne (published w ev) st = [] := by
        cases hpub : published w ev with
        | none => simp
        | some t =>
          cases st with
          | subscriber q => exact absurd rfl (hst q)
          | _ => simp
      rw [h1, List.nil_append]
      refine ih (fun p hm => hev p (List.mem_cons_of_mem _ hm)) _ _ ?_
      intro q hq
      rcases next_cases prod cons c st ev with ⟨p, rfl, h⟩ | h | ⟨_, h⟩
      · rw [h] at hq
        have := admitted_sub hq
        rw [hev p List.mem_cons_self] at this
        exact hp q this
      · rw [h] at hq; exact hst q hq
      · rw [h] at hq; cases hq
  intro evs st w hst
  refine key _ ?_ st w hst
  intro p hm
  obtain ⟨e, _, he⟩ := List.mem_filterMap.1 hm
  cases e with
  | connect c' => injection he with he; injection he with h1 h2; rw [← h2, h1]
  | lost _ => injection he with he; cases he
  | emit _ _ => injection he with he; cases he
  | emitLater _ _ => injection he with he; cases he
  | fire _ => injection he with he; cases he
  | _ => cases he

/-- The messages sent on a connection, one event and what comes after it. -/
theorem inbox_step (prod cons : Bool) {setup : Nat → Setup} {past : List Nat} {st : Nat → Status} {E : Nat → End}
    {arr : List (Nat × String)} {n : Net} (h : NInv setup past st E arr n) (e : NEv) (evs : List NEv) (c : Nat) :
    n.server.sentTo c ++ inbox prod cons c (st c) n.server.pending (serverSide setup (e :: evs)) =
      (netStep prod cons setup n e).server.sentTo c ++
        inbox prod cons c (statusAfter prod cons setup n st e c) (netStep prod cons setup n e).server.pending (serverSide setup evs) := by
  have hsome : ∀ ev, serverEv setup n e = some ev → serverSide setup (e :: evs) = ev :: serverSide setup evs →
      n.server.sentTo c ++ inbox prod cons c (st c) n.server.pending (serverSide setup (e :: evs)) =
      (netStep prod cons setup n e).server.sentTo c ++
        inbox prod cons c (statusAfter prod cons setup n st e c) (netStep prod cons setup n e).server.pending (serverSide setup evs) := by
    intro ev h1 h2
    rw [h2]
    simp only [inbox, netStep, statusAfter, h1]
    rw [sentTo_step h.known prod cons (h.agrees c) ev, step_pending, List.append_assoc]
  cases e with
  | connect c' => exact hsome _ rfl rfl
  | lost c' => exact hsome _ rfl rfl
  | emit s d => exact hsome _ rfl rfl
  | emitLater s d => exact hsome _ rfl rfl
  | fire i => exact hsome _ rfl rfl
  | upload c' r =>
    have hss : serverSide setup (.upload c' r :: evs) = serverSide setup evs := rfl
    rw [hss]
    cases hs : serverEv setup n (.upload c' r) with
    | none => simp only [netStep, statusAfter, hs]
    | some ev =>
      simp only [serverEv, Option.map_eq_some_iff] at hs
      obtain ⟨d, hd, hev⟩ := hs
      have hs' : serverEv setup n (.upload c' r) = some (.message c' d r) := by simp [serverEv, hd]
      simp only [netStep, statusAfter, hs']
      rw [sentTo_step h.known prod cons (h.agrees c), step_pending]
      simp only [published, forOne_none, List.append_nil, waitingAfter]
      congr 1
      rcases next_cases prod cons c (st c) (.message c' d r) with ⟨p, h1, _⟩ | h1 | ⟨hne, h1⟩
      · cases h1
      · rw [h1]
      · rw [h1]
        cases hst : st c with
        | absent => exact absurd hst hne
        | gone => rfl
        | publisher q =>
          have hpath := h.pub c q hst
          have hpp : ∀ q', (setup c).path ≠ [q', "subscribe"] := by
            intro q' hh
            rw [hpath] at hh
            injection hh with _ hh
            injection hh with hh _
            exact absurd hh (by decide)
          rw [inbox_nil prod cons setup c hpp _ _ _ (fun q' hq' => (by cases hq')),
            inbox_nil prod cons setup c hpp _ _ _ (fun q' hq' => (by cases hq'))]
        | subscriber q =>
          -- a subscribing client says nothing
          exfalso
          rw [hst] at h1
          by_cases hc : c' = c
          · subst hc
            have hpath := h.sub c' q hst
            have hsaid : (n.client c').said ≠ [] := by
              intro hh
              rw [hh] at hd
              simp at hd
            have ha := (h.cinv c').said hsaid
            have ho : (n.client c').isOpen = true := by
              by_cases ho : (n.client c').isOpen = true
              · exact ho
              · have := (h.cinv c').fresh (by simpa using ho)
                rw [this] at hsaid
                exact absurd rfl hsaid
            have hr := (h.cinv c').read ho
            rw [ha, hpath, subscribe_parse] at hr
            injection hr with _ hr
            cases hr
          · simp only [Status.next, if_neg hc] at h1
            cases h1
  | accepted c' => rfl
  | clientLost c' => rfl
  | clientEmit _ _ _ => rfl
  | clientEmitLater _ _ _ => rfl
  | clientFire _ => rfl
  | deliver _ _ => rfl

/-- A publishing client's connection at a server with a consumer, when the server neither loses it nor its consumer refuses what comes. -/
theorem steady_step (prod : Bool) (setup : Nat → Setup) (n : Net) (st : Nat → Status) (e : NEv) (c : Nat) (q : String)
    (hpath : (setup c).path = [q, "publish"]) (hl : e ≠ .lost c) (hr : e ≠ .upload c true) (hst : st c = .absent ∨ st c = .publisher q) :
    statusAfter prod true setup n st e c = .absent ∨ statusAfter prod true setup n st e c = .publisher q := by
  unfold statusAfter
  cases hs : serverEv setup n e with
  | none => exact hst
  | some ev =>
    simp only
    cases e with
    | connect c' =>
      injection hs with hs
      subst hs
      by_cases hc : c' = c
      · subst hc
        right
        simp [Status.next, hpath, admitted]
      · simp only [Status.next, if_neg hc]; exact hst
    | lost c' =>
      injection hs with hs
      subst hs
      have hc : c' ≠ c := fun hh => hl (by rw [hh])
      simp only [Status.next, if_neg (fun hh : c' = c ∧ _ => hc hh.1)]; exact hst
    | upload c' r =>
      simp only [serverEv, Option.map_eq_some_iff] at hs
      obtain ⟨d, _, rfl⟩ := hs
      by_cases hc : c' = c
      · subst hc
        have hrf : r = false := by
          cases r with
          | false => rfl
          | true => exact absurd rfl hr
        subst hrf
        rcases hst with hst | hst
        · left; simp [Status.next, hst]
        · right; simp [Status.next, hst]
      · simp only [Status.next, if_neg hc]; exact hst
    | emit _ _ => injection hs with hs; subst hs; exact hst
    | emitLater _ _ => injection hs with hs; subst hs; exact hst
    | fire _ => injection hs with hs; subst hs; exact hst
    | _ => cases hs

theorem run_inv (prod cons : Bool) (setup : Nat → Setup) : ∀ (evs : List NEv) (n : Net) (past : List Nat) (st : Nat → Status) (E : Nat → End)
    (arr : List (Nat × String)), NInv setup past st E arr n → (past ++ connects evs).Nodup →
    ∃ past' st' E' arr', NInv setup past' st' E' arr' (evs.foldl (netStep prod cons setup) n) ∧
      (∀ c, ((evs.foldl (netStep prod cons setup) n).client c).said = (n.client c).said ++ uttered (setup c) c (E c) n.waiting evs) ∧
      (∀ c, (evs.foldl (netStep prod cons setup) n).server.sentTo c =
        n.server.sentTo c ++ inbox prod cons c (st c) n.server.pending (serverSide setup evs)) ∧
      (∀ c q, cons = true → (setup c).path = [q, "publish"] → (∀ e ∈ evs, e ≠ .lost c ∧ e ≠ .upload c true) →
        (st c = .absent ∨ st c = .publisher q) → (st' c = .absent ∨ st' c = .publisher q)) ∧
      (∀ c, .connect c ∈ evs ∨ st c ≠ .absent → st' c ≠ .absent)
  | [], n, past, st, E, arr, h, _ => ⟨past, st, E, arr, h, by simp [uttered], by simp [serverSide, inbox], fun c q _ _ _ hst => hst,
      fun c h => (by rcases h with h | h; cases h; exact h)⟩
  | e :: evs, n, past, st, E, arr, h, hn => by
    have hop : connects (e :: evs) = connects [e] ++ connects evs := by cases e <;> rfl
    rw [hop, ← List.append_assoc] at hn
    have hfresh : ∀ c ∈ connects [e], c ∉ past := by
      intro c hc hp
      have := (List.nodup_append.mp (List.nodup_append.mp hn).1).2.2
      exact this c hp c hc rfl
    obtain ⟨past', st', E', arr', i1, i2, i3, i4, i5⟩ := run_inv prod cons setup evs (netStep prod cons setup n e) _ _ _ _ (h.step prod cons e hfresh) hn
    refine ⟨past', st', E', arr', i1, ?_, ?_, ?_, ?_⟩
    · intro c
      rw [List.foldl_cons, i2 c, waiting_step]
      have : ((netStep prod cons setup n e).client c).said = (n.client c).said ++ toSay (setup c) (emitted n.waiting e) (E c) := said_exact h e c
      rw [this, List.append_assoc]
      rfl
    · intro c
      rw [List.foldl_cons, i3 c, inbox_step prod cons h e evs c]
    · intro c q hcons hpath hev hst
      refine i4 c q hcons hpath (fun e' he' => hev e' (List.mem_cons_of_mem _ he')) ?_
      subst hcons
      exact steady_step prod setup n st e c q hpath (hev e List.mem_cons_self).1 (hev e List.mem_cons_self).2 hst
    · intro c hc
      refine i5 c ?_
      rcases hc with hc | hc
      · rcases List.mem_cons.1 hc with hc | hc
        · right
          subst hc
          simp only [statusAfter, serverEv, Status.next, if_true]
          exact admitted_ne_absent _ _ _
        · exact .inl hc
      · right
        rcases statusAfter_cases prod cons setup n st e c with ⟨_, h1⟩ | h1 | ⟨_, h1⟩
        · rw [h1]; exact admitted_ne_absent _ _ _
        · rw [h1]; exact hc
        · rw [h1]; simp

theorem start_inv (setup : Nat → Setup) : NInv setup [] (fun _ => .absent) (fun _ => .closed) [] {} where
  known := ⟨by simp, by simp, by simp⟩
  agrees := start_agrees
  cinv := fun _ => ⟨fun _ => rfl, by simp, by simp, by simp, by simp, by simp⟩
  ends := fun _ => ⟨by simp, by simp, by simp, by simp⟩
  sub := by simp
  pub := by simp
  handed := by intro c; simp [Net.handed]
  taken := by simp
  arrived := rfl
  prefixes := by intro c; simp [ofConn]
  all := by simp

/-- Uploading on a connection: nothing is said, and as much is heard as there is. -/
theorem drain_up (prod cons : Bool) (setup : Nat → Setup) (c : Nat) : ∀ (k : Nat) (n : Net), (n.client c).heard ≤ (n.client c).said.length →
    (((List.replicate k (NEv.upload c false)).foldl (netStep prod cons setup) n).client c).said = (n.client c).said ∧
    ((n.client c).said.length ≤ (n.client c).heard + k →
      (((List.replicate k (NEv.upload c false)).foldl (netStep prod cons setup) n).client c).heard = (n.client c).said.length)
  | 0, n, hb => ⟨rfl, fun h => Nat.le_antisymm hb (by simpa using h)⟩
  | k + 1, n, hb => by
    rw [List.replicate_succ, List.foldl_cons]
    have hx : ((netStep prod cons setup n (.upload c false)).client c) = if (n.client c).heard < (n.client c).said.length then
        { n.client c with heard := (n.client c).heard + 1 } else n.client c := by
      have : (netStep prod cons setup n (.upload c false)).client c = (clientStep setup n (.upload c false)).client c := rfl
      rw [this]
      simp only [clientStep]
      split
      · rw [change_eq]
      · rfl
    have hsaid : ((netStep prod cons setup n (.upload c false)).client c).said = (n.client c).said := by rw [hx]; split <;> rfl
    have hheard : ((netStep prod cons setup n (.upload c false)).client c).heard =
        if (n.client c).heard < (n.client c).said.length then (n.client c).heard + 1 else (n.client c).heard := by rw [hx]; split <;> rfl
    obtain ⟨h1, h2⟩ := drain_up prod cons setup c k (netStep prod cons setup n (.upload c false))
      (by rw [hsaid, hheard]; split <;> omega)
    refine ⟨h1.trans hsaid, fun hk => ?_⟩
    rw [h2, hsaid]
    rw [hsaid, hheard]
    split <;> omega

/-- A subscribing client with a consumer, when the client neither loses the connection nor its consumer refuses what comes. -/
theorem live_step (prod cons : Bool) (setup : Nat → Setup) (n : Net) (e : NEv) (c : Nat) (q : String) (hpath : (setup c).path = [q, "subscribe"])
    (hcons : (setup c).consumer = true) (hl : e ≠ .clientLost c) (hr : e ≠ .deliver c true) (hci : CInv (setup c) (n.client c))
    (hd : (n.client c).dropped = false) : ((netStep prod cons setup n e).client c).dropped = false := by
  have hx : (netStep prod cons setup n e).client c = (clientStep setup n e).client c := rfl
  rw [hx]
  have hw : ∀ p s d, ((clientWrite setup p s d n).client c).dropped = false := by
    intro p s d
    simp only [clientWrite]
    split
    · rename_i h
      unfold clientSend
      rw [if_pos (hci.listed h.1).2.1]
      split <;> exact hd
    · exact hd
  cases e with
  | accepted c' =>
    simp only [clientStep]
    split
    · by_cases hc : c = c'
      · subst hc
        rw [change_eq]
        unfold clientOpen
        rw [hpath, subscribe_parse]
        simp [hcons]
      · rw [change_ne n hc]; exact hd
    · exact hd
  | clientLost c' =>
    have hc : c ≠ c' := fun hh => hl (by rw [hh])
    simp only [clientStep]
    split
    · rw [change_ne n hc]; exact hd
    · exact hd
  | clientEmit p s d => exact hw p s d
  | clientFire i =>
    simp only [clientStep]
    split
    · exact hd
    · rename_i p s d _; exact hw p s d
  | deliver c' r =>
    simp only [clientStep]
    split
    · split
      · exact hd
      · by_cases hc : c = c'
        · subst hc
          have hrf : r = false := by
            cases r with
            | false => rfl
            | true => exact absurd rfl hr
          rw [hears_client, hrf]
          simp [hd]
        · rw [hears_other c' c hc]; exact hd
    · exact hd
  | upload c' r =>
    simp only [clientStep]
    split
    · by_cases hc : c = c'
      · subst hc; rw [change_eq]; exact hd
      · rw [change_ne n hc]; exact hd
    · exact hd
  | connect _ => exact hd
  | lost _ => exact hd
  | emit _ _ => exact hd
  | emitLater _ _ => exact hd
  | fire _ => exact hd
  | clientEmitLater _ _ _ => exact hd

theorem run_cinv (prod cons : Bool) (setup : Nat → Setup) (c : Nat) : ∀ (evs : List NEv) (n : Net), CInv (setup c) (n.client c) →
    CInv (setup c) ((evs.foldl (netStep prod cons setup) n).client c)
  | [], _, h => h
  | e :: evs, n, h => run_cinv prod cons setup c evs _ (h.move (moves setup n e c))

theorem run_live (prod cons : Bool) (setup : Nat → Setup) (c : Nat) (q : String) (hpath : (setup c).path = [q, "subscribe"])
    (hcons : (setup c).consumer = true) : ∀ (evs : List NEv) (n : Net), CInv (setup c) (n.client c) →
    (∀ e ∈ evs, e ≠ .clientLost c ∧ e ≠ .deliver c true) → (n.client c).dropped = false →
    ((evs.foldl (netStep prod cons setup) n).client c).dropped = false
  | [], _, _, _, hd => hd
  | e :: evs, n, h, hev, hd => run_live prod cons setup c q hpath hcons evs _ (h.move (moves setup n e c))
      (fun e' he' => hev e' (List.mem_cons_of_mem _ he'))
      (live_step prod cons setup n e c q hpath hcons (hev e List.mem_cons_self).1 (hev e List.mem_cons_self).2 h hd)

theorem Move.isOpen {u : Setup} {x y : Client} (m : Move u x y) (h : x.isOpen = true) : y.isOpen = true := by
  cases m with
  | same => exact h
  | opened ho => rw [h] at ho; cases ho
  | gone _ => exact h
  | said p s d _ _ =>
    unfold clientSend
    split
    · split <;> exact h
    · exact h
  | took r _ _ _ => exact h
  | heard _ => exact h

theorem run_open (prod cons : Bool) (setup : Nat → Setup) (c : Nat) : ∀ (evs : List NEv) (n : Net), (n.client c).isOpen = true →
    ((evs.foldl (netStep prod cons setup) n).client c).isOpen = true
  | [], _, h => h
  | e :: evs, n, h => run_open prod cons setup c evs _ ((moves setup n e c).isOpen h)

/-- Delivering on an open connection: the server sends nothing, and as much is taken as there is. -/
theorem drain_down (prod cons : Bool) (setup : Nat → Setup) (c : Nat) : ∀ (k : Nat) (n : Net), (n.client c).taken ≤ (n.server.sentTo c).length →
    (n.client c).isOpen = true → (n.client c).dropped = false →
    ((List.replicate k (NEv.deliver c false)).foldl (netStep prod cons setup) n).server = n.server ∧
    ((n.server.sentTo c).length ≤ (n.client c).taken + k →
      (((List.replicate k (NEv.deliver c false)).foldl (netStep prod cons setup) n).client c).taken = (n.server.sentTo c).length)
  | 0, n, hb, _, _ => ⟨rfl, fun h => Nat.le_antisymm hb (by simpa using h)⟩
  | k + 1, n, hb, ho, hd => by
    rw [List.replicate_succ, List.foldl_cons]
    have hserver : (netStep prod cons setup n (.deliver c false)).server = n.server := rfl
    have hx : (netStep prod cons setup n (.deliver c false)).client c = if (n.client c).taken < (n.server.sentTo c).length then
        { n.client c with taken := (n.client c).taken + 1 } else n.client c := by
      have : (netStep prod cons setup n (.deliver c false)).client c = (clientStep setup n (.deliver c false)).client c := rfl
      rw [this]
      simp only [clientStep, if_pos (And.intro ho hd)]
      split
      · rename_i hg
        rw [List.getElem?_eq_none_iff] at hg
        rw [if_neg (by omega)]
      · rename_i d hg
        have hlt : (n.client c).taken < (n.server.sentTo c).length := by
          by_cases hl : (n.client c).taken < (n.server.sentTo c).length
          · exact hl
          · rw [List.getElem?_eq_none (by omega)] at hg; cases hg
        rw [if_pos hlt, hears_client]
        simp
    have htaken : ((netStep prod cons setup n (.deliver c false)).client c).taken =
        if (n.client c).taken < (n.server.sentTo c).length then (n.client c).taken + 1 else (n.client c).taken := by rw [hx]; split <;> rfl
    have ho' : ((netStep prod cons setup n (.deliver c false)).client c).isOpen = true := by rw [hx]; split <;> exact ho
    have hd' : ((netStep prod cons setup n (.deliver c false)).client c).dropped = false := by rw [hx]; split <;> exact hd
    obtain ⟨h1, h2⟩ := drain_down prod cons setup c k (netStep prod cons setup n (.deliver c false))
      (by rw [hserver, htaken]; split <;> omega) ho' hd'
    refine ⟨h1.trans hserver, fun hk => ?_⟩
    rw [h2, hserver]
    rw [hserver, htaken]
    split <;> omega

theorem connects_append (a b : List NEv) : connects (a ++ b) = connects a ++ connects b := by simp [connects]

theorem connects_replicate (k : Nat) (e : NEv) (h : connects [e] = []) : connects (List.replicate k e) = [] := by
  induction k with
  | zero => rfl
  | succ k ih =>
    rw [List.replicate_succ, show e :: List.replicate k e = [e] ++ List.replicate k e from rfl, connects_append, h, ih]
    rfl

/-! ### C81 -/

/-- **C81, subscribing clients.** Whatever happens in whatever order: what the consumer of a client is handed on a connection is, with the
sequence identifier of the connection's URL, the first of the data published at the server for that sequence while the connection was a subscriber
of it: in order, without gaps, each once. -/
theorem C81_subscribers (prod cons : Bool) (setup : Nat → Setup) (evs : List NEv) (h : (connects evs).Nodup) (c : Nat) :
    (netRun prod cons setup evs).handed c <+:
      (inbox prod cons c .absent [] (serverSide setup evs)).map (fun d => (sequenceOf (setup c).path, d)) := by
  obtain ⟨past', st', E', arr', i1, _, i3, _, _⟩ := run_inv prod cons setup evs {} [] _ _ _ (start_inv setup) (by simpa using h)
  have h3 := i3 c
  have h1 := i1.handed c
  unfold netRun
  rw [h1]
  have : (({} : Net).server.sentTo c) = [] := rfl
  rw [this, List.nil_append] at h3
  rw [h3]
  split
  · exact (List.take_prefix _ _).map _
  · exact List.nil_prefix

/-- **C81, publishing clients.** What the server's consumer is handed is made of what the clients' producers publish: from each connection
it gets, with the sequence identifier of the connection's URL, the first of the data its producer published for that sequence while the
connection was open: in order, without gaps, each once; and nothing comes from elsewhere. -/
theorem C81_publishers (prod cons : Bool) (setup : Nat → Setup) (evs : List NEv) (h : (connects evs).Nodup) :
    ∃ arrivals : List (Nat × String),
      (netRun prod cons setup evs).server.consumed = arrivals.map (fun a => (sequenceOf (setup a.1).path, a.2)) ∧
      ∀ c, ofConn arrivals c <+: uttered (setup c) c .closed [] evs := by
  obtain ⟨past', st', E', arr', i1, i2, _, _, _⟩ := run_inv prod cons setup evs {} [] _ _ _ (start_inv setup) (by simpa using h)
  refine ⟨arr', i1.arrived, fun c => ?_⟩
  have h2 := i2 c
  have : (({} : Net).client c).said = [] := rfl
  rw [this, List.nil_append] at h2
  have hp := i1.prefixes c
  rw [h2] at hp
  exact hp.trans (List.take_prefix _ _)

/-- **C81, nothing is held back.** A client opened for a subscription, with a consumer, that neither loses its connection nor refuses anything has
been handed everything once the messages on their way have arrived. -/
theorem C81_all_delivered (prod cons : Bool) (setup : Nat → Setup) (pre post : List NEv) (c : Nat) (q : String)
    (hpath : (setup c).path = [q, "subscribe"]) (hcons : (setup c).consumer = true)
    (h : (connects (pre ++ .accepted c :: post)).Nodup) (hconn : .connect c ∈ pre)
    (hev : ∀ e ∈ pre ++ .accepted c :: post, e ≠ .clientLost c ∧ e ≠ .deliver c true) (k : Nat)
    (hk : (inbox prod cons c .absent [] (serverSide setup (pre ++ .accepted c :: post))).length ≤ k) :
    (netRun prod cons setup ((pre ++ .accepted c :: post) ++ List.replicate k (.deliver c false))).handed c =
      (inbox prod cons c .absent [] (serverSide setup (pre ++ .accepted c :: post))).map (fun d => (q, d)) := by
  -- the connection is open
  have hpre : (connects pre).Nodup := by
    rw [connects_append] at h
    exact (List.nodup_append.mp h).1
  have hopen : ((netRun prod cons setup (pre ++ .accepted c :: post)).client c).isOpen = true := by
    obtain ⟨_, st1, _, _, j1, _, _, _, j5⟩ := run_inv prod cons setup pre {} [] _ _ _ (start_inv setup) (by simpa using hpre)
    have hfound := (agrees_found (j1.agrees c)).2 (j5 c (.inl hconn))
    unfold netRun
    rw [List.foldl_append, List.foldl_cons]
    refine run_open prod cons setup c post _ ?_
    have hx : ∀ n : Net, (n.server.find c).isSome = true → ((netStep prod cons setup n (.accepted c)).client c).isOpen = true := by
      intro n hf
      have : (netStep prod cons setup n (.accepted c)).client c = (clientStep setup n (.accepted c)).client c := rfl
      rw [this]
      simp only [clientStep]
      by_cases ho : (n.client c).isOpen = false
      · rw [if_pos ⟨hf, ho⟩, change_eq]
        unfold clientOpen
        split <;> rfl
      · rw [if_neg (fun hh => ho hh.2)]
        simpa using ho
    exact hx _ hfound
  have hlive : ((netRun prod cons setup (pre ++ .accepted c :: post)).client c).dropped = false :=
    run_live prod cons setup c q hpath hcons _ {} ((start_inv setup).cinv c) hev rfl
  obtain ⟨_, _, _, _, i1, _, i3, _, _⟩ := run_inv prod cons setup (pre ++ .accepted c :: post) {} [] _ _ _ (start_inv setup) (by simpa using h)
  have hsent := i3 c
  have h0 : (({} : Net).server.sentTo c) = [] := rfl
  have h0' : (({} : Net).server.pending) = [] := rfl
  rw [h0, List.nil_append, h0'] at hsent
  obtain ⟨d1, d2⟩ := drain_down prod cons setup c k _ (i1.taken c) hopen hlive
  have hall : (connects ((pre ++ .accepted c :: post) ++ List.replicate k (.deliver c false))).Nodup := by
    rw [connects_append, connects_replicate k _ rfl, List.append_nil]; exact h
  obtain ⟨_, _, _, _, k1, _, _, _, _⟩ := run_inv prod cons setup ((pre ++ .accepted c :: post) ++ List.replicate k (.deliver c false)) {} [] _ _ _
    (start_inv setup) (by simpa using hall)
  have hh := k1.handed c
  have hread := (k1.cinv c).read (by rw [List.foldl_append]; exact run_open prod cons setup c _ _ hopen)
  rw [hpath, subscribe_parse] at hread
  injection hread with _ hact
  rw [if_pos hact] at hh
  unfold netRun
  rw [hh]
  rw [List.foldl_append]
  rw [d2 (by rw [hsent]; omega), d1, List.take_length, hsent, hpath]
  rfl

/-- **C81, nothing is held back.** From a client opened for publishing at a server with a consumer, everything has reached that consumer
once the messages on their way have arrived, if the server does not lose the connection and its consumer refuses nothing of it. -/
theorem C81_all_published (prod : Bool) (setup : Nat → Setup) (evs : List NEv) (c : Nat) (q : String)
    (hpath : (setup c).path = [q, "publish"]) (h : (connects evs).Nodup) (hev : ∀ e ∈ evs, e ≠ .lost c ∧ e ≠ .upload c true) (k : Nat)
    (hk : (uttered (setup c) c .closed [] evs).length ≤ k) :
    ∃ arrivals : List (Nat × String),
      (netRun prod true setup (evs ++ List.replicate k (.upload c false))).server.consumed =
        arrivals.map (fun a => (sequenceOf (setup a.1).path, a.2)) ∧
      ofConn arrivals c = uttered (setup c) c .closed [] evs ∧
      ∀ c', ofConn arrivals c' <+: uttered (setup c') c' .closed [] (evs ++ List.replicate k (.upload c false)) := by
  have hall : (connects (evs ++ List.replicate k (.upload c false))).Nodup := by
    rw [connects_append, connects_replicate k _ rfl, List.append_nil]; exact h
  obtain ⟨_, st', _, arr', i1, i2, _, i4, _⟩ := run_inv prod true setup (evs ++ List.replicate k (.upload c false)) {} [] _ _ _ (start_inv setup)
    (by simpa using hall)
  obtain ⟨_, _, _, _, j1, j2, _, _, _⟩ := run_inv prod true setup evs {} [] _ _ _ (start_inv setup) (by simpa using h)
  have hsaid := j2 c
  have h0 : (({} : Net).client c).said = [] := rfl
  rw [h0, List.nil_append] at hsaid
  have h0' : ({} : Net).waiting = [] := rfl
  rw [h0'] at hsaid
  obtain ⟨d1, d2⟩ := drain_up prod true setup c k _ (j1.cinv c).bound
  refine ⟨arr', i1.arrived, ?_, fun c' => ?_⟩
  rotate_left
  · have h2 := i2 c'
    have h0 : (({} : Net).client c').said = [] := rfl
    rw [h0, List.nil_append] at h2
    have hp := i1.prefixes c'
    rw [h2] at hp
    exact hp.trans (List.take_prefix _ _)
  have hst := i4 c q rfl hpath (by
    intro e he
    rcases List.mem_append.1 he with he | he
    · exact hev e he
    · rw [List.eq_of_mem_replicate he]
      exact ⟨by simp, by simp⟩) (.inl rfl)
  have hheard := d2 (by rw [hsaid]; omega)
  have hp := i1.prefixes c
  rw [List.foldl_append] at hp
  rw [d1, hheard, List.take_length, hsaid] at hp
  rcases hst with hst | hst
  · -- never connected
    have hcl := (i1.ends c).closed.2 hst
    have hf := (i1.cinv c).fresh ((i1.ends c).fresh.1 (.inl hcl))
    rw [List.foldl_append] at hf
    have hs := d1
    rw [hf, hsaid] at hs
    rw [← hs] at hp ⊢
    exact List.prefix_nil.1 hp
  · have := i1.all c q hst
    rw [List.foldl_append] at this
    rw [this, d1, hheard, List.take_length, hsaid]

/-! ### Examples -/

/-- A server with a producer and a consumer; clients 1 and 2 subscribe to `a` and `b`, clients 3 and 4 share producer 7 and publish `x` and `y`, client 5
has a path with an unknown action. -/
def exSetup : Nat → Setup
  | 1 => ⟨["a", "subscribe"], none, true⟩
  | 2 => ⟨["b", "subscribe"], none, true⟩
  | 3 => ⟨["x", "publish"], some 7, false⟩
  | 4 => ⟨["y", "publish"], some 7, false⟩
  | _ => ⟨["a", "listen"], none, true⟩

def exNet : List NEv :=
  [.connect 1, .emit "a" "a1", .connect 3, .accepted 3, .connect 4, .clientEmit 7 "x" "x1", .clientEmit 7 "y" "early", .accepted 4,
   .connect 2, .accepted 1, .emit "b" "b1", .emit "a" "a2", .deliver 1 false, .accepted 2, .clientEmitLater 7 "y" "y1", .upload 3 false,
   .clientEmit 7 "x" "x2", .clientEmit 7 "z" "z1", .deliver 2 false, .clientFire 0, .upload 4 false, .connect 5, .accepted 5, .emit "a" "a3"]

example : (connects exNet).Nodup ∧ (netRun true true exSetup exNet).handed 1 = [("a", "a1")] ∧ (netRun true true exSetup exNet).handed 2 = [("b", "b1")] ∧
    inbox true true 1 .absent [] (serverSide exSetup exNet) = ["a1", "a2", "a3"] ∧
    (netRun true true exSetup exNet).server.consumed = [("x", "x1"), ("y", "y1")] ∧
    uttered (exSetup 3) 3 .closed [] exNet = ["x1", "x2"] ∧ uttered (exSetup 4) 4 .closed [] exNet = ["y1"] := by decide +kernel

/-- The rest arrives. -/
example : (netRun true true exSetup (exNet ++ List.replicate 3 (.deliver 1 false))).handed 1 = [("a", "a1"), ("a", "a2"), ("a", "a3")] ∧
    (netRun true true exSetup (exNet ++ List.replicate 2 (.upload 3 false))).server.consumed = [("x", "x1"), ("y", "y1"), ("x", "x2")] := by decide +kernel

/-- What is on its way when a client loses its connection does not arrive, and the client does not connect again: a new connection only gets what is
published after it. -/
theorem C81_false_lost :
    (netRun true false exSetup [.connect 1, .accepted 1, .emit "a" "a1", .emit "a" "a2", .deliver 1 false, .clientLost 1, .deliver 1 false]).handed 1
      = [("a", "a1")] := by decide +kernel

/-- A client whose consumer refuses a document (of another sequence) is cut off: it gets nothing of what follows. -/
theorem C81_false_refused :
    (netRun true false exSetup [.connect 1, .accepted 1, .emit "a" "a1", .emit "a" "a2", .deliver 1 true, .deliver 1 false]).handed 1
      = [("a", "a1")] := by decide +kernel

end Verif.Ws
