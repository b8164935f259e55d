import Verif.Ws.Model

/-!
# Publishing reaches exactly the subscribers (C47)
-/
namespace Verif.Ws

/-! ### Specification: one connection looked at by itself -/

/-- What one connection is. -/
inductive Status where
  /-- It has not been opened yet. -/
  | absent
  | subscriber (seq : String)
  | publisher (seq : String)
  /-- It was refused, has been lost, or was thrown out. -/
  | gone
deriving DecidableEq, Repr

/-- What opening a connection with a path makes of it: exactly `[sequence, "subscribe"]` on a server
with a producer and `[sequence, "publish"]` on one with a consumer are accepted. -/
def admitted (prod cons : Bool) (path : List String) : Status :=
  match path with
  | [s, a] =>
    if a = "subscribe" ∧ prod = true then .subscriber s
    else if a = "publish" ∧ cons = true then .publisher s
    else .gone
  | _ => .gone

/-- What an event makes of connection `c`; a subscriber that talks is thrown out, and so is a publisher whose data is refused. -/
def Status.next (prod cons : Bool) (c : Nat) (st : Status) : Ev → Status
  | .opened c' path => if c' = c then admitted prod cons path else st
  | .lost c' => if c' = c ∧ st ≠ .absent then .gone else st
  | .message c' _ refused =>
    if c' = c then
      match st with
      | .subscriber _ => .gone
      | .publisher q => if refused then .gone else .publisher q
      | st => st
    else st
  | _ => st

/-- What is published at an event: immediately, or when the reactor runs a delayed write. -/
def published (pending : List (String × String)) : Ev → Option (String × String)
  | .emit s d => some (s, d)
  | .fire i => pending[i]?
  | _ => none

/-- The delayed writes not yet run. -/
def waitingAfter (pending : List (String × String)) : Ev → List (String × String)
  | .emitLater s d => pending ++ [(s, d)]
  | .fire i => pending.eraseIdx i
  | _ => pending

/-- What a connection gets of a publication. -/
def forOne : Option (String × String) → Status → List String
  | some (s, d), .subscriber s' => if s = s' then [d] else []
  | _, _ => []

/-- The messages connection `c` must get: whatever is published for sequence `s` while it is a
subscriber of `s`, in that order. -/
def inbox (prod cons : Bool) (c : Nat) : Status → List (String × String) → List Ev → List String
  | _, _, [] => []
  | st, w, e :: es =>
    forOne (published w e) st ++ inbox prod cons c (st.next prod cons c e) (waitingAfter w e) es

/-- What the consumer gets at an event. -/
def fromOne (st : Nat → Status) : Ev → List (String × String)
  | .message c d _ => (match st c with | .publisher s => [(s, d)] | _ => [])
  | _ => []

/-- The data the consumer must get: whatever a connection sends while it is a publisher, with the
sequence identifier of that connection, in the order of arrival. -/
def deliveries (prod cons : Bool) : (Nat → Status) → List Ev → List (String × String)
  | _, [] => []
  | st, e :: es =>
    fromOne st e ++ deliveries prod cons (fun c => (st c).next prod cons c e) es

/-- The connections opened. -/
def opens : List Ev → List Nat := List.filterMap (fun | .opened c _ => some c | _ => none)

/-! ### The invariant -/

@[simp] theorem forOne_none (st : Status) : forOne none st = [] := by cases st <;> rfl
@[simp] theorem forOne_sub (q d q' : String) : forOne (some (q, d)) (.subscriber q') = if q = q' then [d] else [] := rfl
@[simp] theorem forOne_absent (p) : forOne (some p) .absent = [] := rfl
@[simp] theorem forOne_pub (p q) : forOne (some p) (.publisher q) = [] := rfl
@[simp] theorem forOne_gone (p) : forOne (some p) .gone = [] := rfl

/-- How connection `c` appears in the server when its status is `st`. -/
structure Agrees (c : Nat) (st : Status) (s : Server) : Prop where
  absent : st = .absent → s.find c = none
  sub : ∀ q, st = .subscriber q → s.find c = some ⟨c, some q, some .subscribe, false, false⟩ ∧ c ∈ s.registered
  pub : ∀ q, st = .publisher q → s.find c = some ⟨c, some q, some .publish, true, false⟩
  gone : st = .gone → ∃ x, s.find c = some x ∧ x.dropped = true

/-- Only connections that were opened are known, and none is registered twice. -/
structure Known (past : List Nat) (s : Server) : Prop where
  conns : ∀ x ∈ s.conns, x.id ∈ past
  registered : ∀ c ∈ s.registered, c ∈ past
  nodup : s.registered.Nodup

theorem find_snoc_ne {s : Server} {x : Conn} {c : Nat} (h : x.id ≠ c) (r p t k) :
    Server.find ⟨s.conns ++ [x], r, p, t, k⟩ c = s.find c := by
  simp [Server.find, List.find?_append, h]

theorem find_snoc_eq {s : Server} {x : Conn} (h : s.find x.id = none) (r p t k) :
    Server.find ⟨s.conns ++ [x], r, p, t, k⟩ x.id = some x := by
  unfold Server.find at h ⊢
  simp [List.find?_append, h]

theorem find_update_ne {s : Server} {c c' : Nat} {f : Conn → Conn} (hf : ∀ x, (f x).id = x.id) (h : c' ≠ c) :
    (s.update c' f).find c = s.find c := by
  unfold Server.find Server.update
  induction s.conns with
  | nil => rfl
  | cons x xs ih =>
    simp only [List.map_cons, List.find?_cons]
    by_cases hx : x.id = c'
    · rw [if_pos hx, hf]
      simp only at ih
      rw [ih]
      have : x.id ≠ c := fun e => h (hx.symm.trans e)
      simp [this]
    · rw [if_neg hx]
      simp only at ih
      rw [ih]

theorem find_update_eq {s : Server} {c : Nat} {f : Conn → Conn} (hf : ∀ x, (f x).id = x.id) :
    (s.update c f).find c = (s.find c).map f := by
  unfold Server.find Server.update
  induction s.conns with
  | nil => rfl
  | cons x xs ih =>
    simp only [List.map_cons, List.find?_cons]
    by_cases hx : x.id = c
    · simp [hx, hf]
    · rw [if_neg hx]
      simp only at ih
      rw [ih]
      simp [hx]

theorem gone_update {s : Server} {c : Nat} {x : Conn} (hx : s.find c = some x) {f : Conn → Conn}
    (hf : ∀ x, (f x).id = x.id) (hd : ∀ x, (f x).dropped = true) :
    ∃ y, (s.update c f).find c = some y ∧ y.dropped = true :=
  ⟨f x, by rw [find_update_eq hf, hx]; rfl, hd x⟩

theorem find_none_of_past {past : List Nat} {s : Server} (h : Known past s) {c : Nat} (hc : c ∉ past) :
    s.find c = none := by
  unfold Server.find
  rw [List.find?_eq_none]
  intro x hx
  simp only [decide_eq_true_eq]
  rintro rfl
  exact hc (h.conns x hx)

theorem Known.step {past : List Nat} {s : Server} (h : Known past s) (prod cons : Bool) (e : Ev)
    (he : ∀ c ∈ opens [e], c ∉ past) : Known (past ++ opens [e]) (step prod cons s e) := by
  obtain ⟨h1, h2, h3⟩ := h
  have hup : ∀ (s : Server) (c : Nat) (f : Conn → Conn), (∀ x, (f x).id = x.id) → (∀ x ∈ s.conns, x.id ∈ past) →
      ∀ x ∈ (s.update c f).conns, x.id ∈ past := by
    intro s c f hf hs x hx
    simp only [Server.update, List.mem_map] at hx
    obtain ⟨y, hy, rfl⟩ := hx
    split
    · rw [hf]; exact hs y hy
    · exact hs y hy
  have hw : ∀ q d, Known past (doWrite s q d) := fun q d => ⟨h1, h2, h3⟩
  cases e with
  | opened c path =>
    have ho : opens [Ev.opened c path] = [c] := rfl
    rw [ho] at he ⊢
    have hc : c ∉ past := he c (by simp)
    have hconn : ∀ (x : Conn), x.id = c → ∀ y ∈ s.conns ++ [x], y.id ∈ past ++ [c] := by
      intro x hx y hy
      rcases List.mem_append.mp hy with hy | hy
      · exact List.mem_append_left _ (h1 y hy)
      · rw [List.mem_singleton.mp hy, hx]; simp
    have hreg : ∀ y ∈ s.registered, y ∈ past ++ [c] := fun y hy => List.mem_append_left _ (h2 y hy)
    simp only [Ws.step]
    split
    · exact ⟨hconn _ rfl, hreg, h3⟩
    · split
      · refine ⟨hconn _ rfl, ?_, ?_⟩
        · intro y hy
          rcases List.mem_append.mp hy with hy | hy
          · exact hreg y hy
          · rw [List.mem_singleton.mp hy]; simp
        · rw [List.nodup_append]
          refine ⟨h3, by simp, ?_⟩
          intro a ha b hb
          rw [List.mem_singleton.mp hb]
          rintro rfl; exact hc (h2 _ ha)
      · exact ⟨hconn _ rfl, hreg, h3⟩
    · exact ⟨hconn _ rfl, hreg, h3⟩
  | lost c =>
    have ho : opens [Ev.lost c] = [] := rfl
    rw [ho, List.append_nil]
    simp only [Ws.step]
    split
    · exact ⟨h1, h2, h3⟩
    · split
      · exact ⟨hup s c _ (fun _ => rfl) h1, fun y hy => h2 y (List.mem_of_mem_erase hy), h3.erase c⟩
      · exact ⟨hup s c _ (fun _ => rfl) h1, h2, h3⟩
  | message c d r =>
    have ho : opens [Ev.message c d r] = [] := rfl
    rw [ho, List.append_nil]
    simp only [Ws.step]
    split
    · exact ⟨h1, h2, h3⟩
    · split
      · split
        · split
          · exact ⟨hup _ c _ (fun _ => rfl) h1, h2, h3⟩
          · exact ⟨h1, h2, h3⟩
        · exact ⟨h1, h2, h3⟩
      · exact ⟨hup s c _ (fun _ => rfl) h1, h2, h3⟩
  | emit q d =>
    have ho : opens [Ev.emit q d] = [] := rfl
    rw [ho, List.append_nil]; exact hw q d
  | emitLater q d =>
    have ho : opens [Ev.emitLater q d] = [] := rfl
    rw [ho, List.append_nil]; exact ⟨h1, h2, h3⟩
  | fire i =>
    have ho : opens [Ev.fire i] = [] := rfl
    rw [ho, List.append_nil]
    simp only [Ws.step]
    split <;> exact ⟨h1, h2, h3⟩

theorem Agrees.step {past : List Nat} {s : Server} (hk : Known past s) (prod cons : Bool) (e : Ev)
    (he : ∀ c ∈ opens [e], c ∉ past) {c : Nat} {st : Status} (h : Agrees c st s) :
    Agrees c (st.next prod cons c e) (step prod cons s e) := by
  obtain ⟨h1, h2, h3, h4⟩ := h
  cases e with
  | opened c' path =>
    by_cases hc : c' = c
    · subst hc
      have hnone := find_none_of_past hk (he c' (by simp [opens]))
      have hst : Status.next prod cons c' st (.opened c' path) = admitted prod cons path := by simp [Status.next]
      rw [hst]
      have hmk : ∀ (x : Conn), x.id = c' → ∀ r p t k, Server.find ⟨s.conns ++ [x], r, p, t, k⟩ c' = some x := by
        rintro x rfl r p t k; exact find_snoc_eq hnone r p t k
      -- the three ways to be refused share this
      have hgone : ∀ (x : Conn), x.id = c' → x.dropped = true → ∀ r p t k,
          Agrees c' .gone ⟨s.conns ++ [x], r, p, t, k⟩ := by
        intro x hx hd r p t k
        exact ⟨by simp, by simp, by simp, fun _ => ⟨x, hmk x hx r p t k, hd⟩⟩
      unfold admitted
      simp only [Ws.step]
      match path with
      | [] => exact hgone _ rfl rfl _ _ _ _
      | [a] => exact hgone _ rfl rfl _ _ _ _
      | a :: b :: d :: l => exact hgone _ rfl rfl _ _ _ _
      | [q, a] =>
        simp only [parsePath, readAction]
        by_cases ha : a = "publish"
        · subst ha
          have : ¬ ("publish" = "subscribe" ∧ prod = true) := by rintro ⟨h, _⟩; exact absurd h (by decide)
          rw [if_pos rfl]
          simp only [if_neg this]
          cases cons
          · simpa using hgone ⟨c', some q, some .publish, false, true⟩ rfl rfl s.registered s.pending s.sent s.consumed
          · simp only [true_and, if_true]
            refine ⟨by simp, by simp, ?_, by simp⟩
            intro q' hq'
            cases hq'
            exact hmk _ rfl _ _ _ _
        · rw [if_neg ha]
          by_cases hb : a = "subscribe"
          · subst hb
            rw [if_pos rfl]
            cases prod
            · have : ¬ ("subscribe" = "publish" ∧ cons = true) := by rintro ⟨h, _⟩; exact absurd h (by decide)
              simpa [this] using hgone ⟨c', some q, some .subscribe, false, true⟩ rfl rfl s.registered s.pending s.sent s.consumed
            · simp only [true_and, if_true]
              refine ⟨by simp, ?_, by simp, by simp⟩
              intro q' hq'
              cases hq'
              exact ⟨hmk _ rfl _ _ _ _, by simp⟩
          · rw [if_neg hb]
            simpa [ha, hb] using hgone ⟨c', some q, none, false, true⟩ rfl rfl s.registered s.pending s.sent s.consumed
    · have hst : Status.next prod cons c st (.opened c' path) = st := by simp [Status.next, hc]
      rw [hst]
      have hf : (Ws.step prod cons s (.opened c' path)).find c = s.find c := by
        simp only [Ws.step]
        split
        · exact find_snoc_ne hc _ _ _ _
        · split <;> exact find_snoc_ne hc _ _ _ _
        · exact find_snoc_ne hc _ _ _ _
      have hr : c ∈ s.registered → c ∈ (Ws.step prod cons s (.opened c' path)).registered := by
        intro hr
        simp only [Ws.step]
        split
        · exact hr
        · split
          · exact List.mem_append_left _ hr
          · exact hr
        · exact hr
      refine ⟨?_, ?_, ?_, ?_⟩
      · rw [hf]; exact h1
      · intro q hq; rw [hf]; exact ⟨(h2 q hq).1, hr (h2 q hq).2⟩
      · rw [hf]; exact h3
      · rw [hf]; exact h4
  | lost c' =>
    by_cases hc : c' = c
    · subst hc
      by_cases hst : st = .absent
      · have : Status.next prod cons c' st (.lost c') = st := by simp [Status.next, hst]
        rw [this]
        have hn := h1 hst
        simp only [Ws.step, hn]
        exact ⟨h1, h2, h3, h4⟩
      · have : Status.next prod cons c' st (.lost c') = .gone := by simp [Status.next, hst]
        rw [this]
        refine ⟨by simp, by simp, by simp, fun _ => ?_⟩
        have hx : ∃ x, s.find c' = some x := by
          cases st with
          | absent => exact absurd rfl hst
          | subscriber q => exact ⟨_, (h2 q rfl).1⟩
          | publisher q => exact ⟨_, h3 q rfl⟩
          | gone => obtain ⟨x, hx, _⟩ := h4 rfl; exact ⟨x, hx⟩
        obtain ⟨x, hx⟩ := hx
        simp only [Ws.step, hx]
        split
        · exact gone_update (s := s) hx (f := fun x => { x with dropped := true, fed := if x.action = some .publish then false else x.fed }) (fun _ => rfl) (fun _ => rfl)
        · exact gone_update (s := s) hx (fun _ => rfl) (fun _ => rfl)
    · have hst : Status.next prod cons c st (.lost c') = st := by simp [Status.next, hc]
      rw [hst]
      have hf : (Ws.step prod cons s (.lost c')).find c = s.find c := by
        simp only [Ws.step]
        split
        · rfl
        · split
          · exact find_update_ne (s := s) (f := fun x => { x with dropped := true, fed := if x.action = some .publish then false else x.fed }) (fun _ => rfl) hc
          · exact find_update_ne (fun _ => rfl) hc
      have hr : c ∈ s.registered → c ∈ (Ws.step prod cons s (.lost c')).registered := by
        intro hr
        simp only [Ws.step]
        split
        · exact hr
        · split
          · exact (List.mem_erase_of_ne (Ne.symm hc)).mpr hr
          · exact hr
      refine ⟨?_, ?_, ?_, ?_⟩
      · rw [hf]; exact h1
      · intro q hq; rw [hf]; exact ⟨(h2 q hq).1, hr (h2 q hq).2⟩
      · rw [hf]; exact h3
      · rw [hf]; exact h4
  | message c' d r =>
    by_cases hc : c' = c
    · subst hc
      simp only [Status.next, if_true]
      cases st with
      | absent =>
        have hn := h1 rfl
        simp only [Ws.step, hn]
        exact ⟨h1, h2, h3, h4⟩
      | subscriber q =>
        obtain ⟨hx, hr⟩ := h2 q rfl
        refine ⟨by simp, by simp, by simp, fun _ => ?_⟩
        simp only [Ws.step, hx]
        rw [if_neg (by simp)]
        exact gone_update hx (fun _ => rfl) (fun _ => rfl)
      | publisher q =>
        have hx := h3 q rfl
        cases r with
        | false =>
          refine ⟨by simp, by simp, ?_, by simp⟩
          intro q' hq'
          simp only [Ws.step, hx]
          exact h3 q' hq'
        | true =>
          refine ⟨by simp, by simp, by simp, fun _ => ?_⟩
          simp only [Ws.step, hx]
          exact gone_update (s := { s with consumed := _ }) hx (fun _ => rfl) (fun _ => rfl)
      | gone =>
        obtain ⟨x, hx, hd⟩ := h4 rfl
        refine ⟨by simp, by simp, by simp, fun _ => ?_⟩
        simp only [Ws.step, hx]
        split
        · rw [if_neg (by simp [hd])]
          exact ⟨x, hx, hd⟩
        · exact gone_update hx (fun _ => rfl) (fun _ => rfl)
    · have hst : Status.next prod cons c st (.message c' d r) = st := by simp [Status.next, hc]
      rw [hst]
      have hf : (Ws.step prod cons s (.message c' d r)).find c = s.find c := by
        simp only [Ws.step]
        split
        · rfl
        · split
          · split
            · split
              · exact find_update_ne (s := { s with consumed := _ }) (fun _ => rfl) hc
              · rfl
            · rfl
          · exact find_update_ne (fun _ => rfl) hc
      have hr : (Ws.step prod cons s (.message c' d r)).registered = s.registered := by
        simp only [Ws.step]
        split
        · rfl
        · split
          · split
            · split <;> rfl
            · rfl
          · rfl
      refine ⟨?_, ?_, ?_, ?_⟩
      · rw [hf]; exact h1
      · intro q hq; rw [hf, hr]; exact h2 q hq
      · rw [hf]; exact h3
      · rw [hf]; exact h4
  | emit q d => exact ⟨h1, h2, h3, h4⟩
  | emitLater q d => exact ⟨h1, h2, h3, h4⟩
  | fire i =>
    simp only [Status.next, Ws.step]
    split <;> exact ⟨h1, h2, h3, h4⟩

theorem step_pending (prod cons : Bool) (s : Server) (e : Ev) :
    (step prod cons s e).pending = waitingAfter s.pending e := by
  cases e with
  | opened c path =>
    simp only [Ws.step, waitingAfter]
    split
    · rfl
    · split <;> rfl
    · rfl
  | lost c =>
    simp only [Ws.step, waitingAfter]
    split
    · rfl
    · split <;> rfl
  | message c d r =>
    simp only [Ws.step, waitingAfter]
    split
    · rfl
    · split
      · split
        · split <;> rfl
        · rfl
      · rfl
  | emit q d => rfl
  | emitLater q d => rfl
  | fire i =>
    simp only [Ws.step, waitingAfter]
    split
    · rename_i h
      rw [List.eraseIdx_of_length_le (by simpa using h)]
    · rfl

/-- What an event sends to `c`. -/
theorem write_to {past : List Nat} {s : Server} (hk : Known past s) {c : Nat} {st : Status} (h : Agrees c st s)
    (q d : String) :
    ((s.registered.flatMap (sendTo s q d)).filter (·.1 = c)).map (·.2)
      = forOne (some (q, d)) st := by
  have hone : ∀ c', (sendTo s q d c').filter (·.1 = c) = if c' = c then sendTo s q d c' else [] := by
    intro c'
    unfold sendTo
    cases s.find c' with
    | none => simp
    | some x =>
      simp only
      split
      · split
        · split
          · simp
          · by_cases hc : c' = c <;> simp [hc]
        · simp
      · simp
  have hall : ∀ (l : List Nat), l.Nodup →
      (l.flatMap (sendTo s q d)).filter (·.1 = c) = if c ∈ l then sendTo s q d c else [] := by
    intro l
    induction l with
    | nil => simp
    | cons x xs ih =>
      intro hnd
      rw [List.nodup_cons] at hnd
      rw [List.flatMap_cons, List.filter_append, hone, ih hnd.2]
      by_cases hx : x = c
      · subst hx; simp [hnd.1]
      · have : c ≠ x := fun e => hx e.symm
        simp [hx, this]
  rw [hall _ hk.nodup]
  cases st with
  | absent =>
    have hn := h.absent rfl
    have : sendTo s q d c = [] := by simp [sendTo, hn]
    rw [this]; simp
  | subscriber q' =>
    obtain ⟨hx, hr⟩ := h.sub q' rfl
    rw [if_pos hr]
    have : sendTo s q d c = if q = q' then [(c, d)] else [] := by
      simp only [sendTo, hx, if_true]
      by_cases hq : q = q'
      · simp [hq]
      · have : ¬ (some q' = some q) := by simp; exact fun e => hq e.symm
        simp [hq, this]
    rw [this]
    by_cases hq : q = q' <;> simp [hq]
  | publisher q' =>
    have hx := h.pub q' rfl
    have : sendTo s q d c = [] := by simp [sendTo, hx]
    rw [this]; simp
  | gone =>
    obtain ⟨x, hx, hd⟩ := h.gone rfl
    have : sendTo s q d c = [] := by
      simp only [sendTo, hx, hd]
      split
      · split <;> simp
      · rfl
    rw [this]; simp

theorem step_sent {past : List Nat} {s : Server} (hk : Known past s) (prod cons : Bool) {c : Nat} {st : Status}
    (h : Agrees c st s) (e : Ev) :
    (((step prod cons s e).sent).filter (·.1 = c)).map (·.2) = (s.sent.filter (·.1 = c)).map (·.2) ++
      forOne (published s.pending e) st := by
  have hw := write_to hk h
  cases e with
  | opened c' path =>
    have : (step prod cons s (.opened c' path)).sent = s.sent := by
      simp only [Ws.step]
      split
      · rfl
      · split <;> rfl
      · rfl
    rw [this]; simp [published]
  | lost c' =>
    have : (step prod cons s (.lost c')).sent = s.sent := by
      simp only [Ws.step]
      split
      · rfl
      · split <;> rfl
    rw [this]; simp [published]
  | message c' d r =>
    have : (step prod cons s (.message c' d r)).sent = s.sent := by
      simp only [Ws.step]
      split
      · rfl
      · split
        · split
          · split <;> rfl
          · rfl
        · rfl
    rw [this]; simp [published]
  | emit q d =>
    simp only [Ws.step, doWrite, List.filter_append, List.map_append, hw, published]
  | emitLater q d => simp [Ws.step, published]
  | fire i =>
    simp only [Ws.step, published]
    cases hp : s.pending[i]? with
    | none => simp
    | some p =>
      obtain ⟨q, d⟩ := p
      simp only [doWrite, List.filter_append, List.map_append, hw]

theorem step_consumed (prod cons : Bool) (s : Server) (st : Nat → Status) (h : ∀ c, Agrees c (st c) s) (e : Ev) :
    (step prod cons s e).consumed = s.consumed ++
      fromOne st e := by
  cases e with
  | opened c' path =>
    simp only [Ws.step, fromOne, List.append_nil]
    split
    · rfl
    · split <;> rfl
    · rfl
  | lost c' =>
    simp only [Ws.step, fromOne, List.append_nil]
    split
    · rfl
    · split <;> rfl
  | message c d r =>
    obtain ⟨h1, h2, h3, h4⟩ := h c
    simp only [Ws.step, fromOne]
    cases hst : st c with
    | absent => rw [h1 hst]; simp
    | subscriber q => rw [(h2 q hst).1]; simp [Server.update]
    | publisher q => rw [h3 q hst]; cases r <;> simp [Server.update]
    | gone =>
      obtain ⟨x, hx, hd⟩ := h4 hst
      rw [hx]
      simp only [hd]
      split <;> simp [Server.update]
  | emit q d => simp [Ws.step, doWrite, fromOne]
  | emitLater q d => simp [Ws.step, fromOne]
  | fire i =>
    simp only [Ws.step, fromOne, List.append_nil]
    split <;> rfl

theorem run_from (prod cons : Bool) : ∀ (evs : List Ev) (s : Server) (past : List Nat) (st : Nat → Status),
    Known past s → (∀ c, Agrees c (st c) s) → (past ++ opens evs).Nodup →
    (∀ c, (((evs.foldl (step prod cons) s).sent).filter (·.1 = c)).map (·.2)
      = (s.sent.filter (·.1 = c)).map (·.2) ++ inbox prod cons c (st c) s.pending evs) ∧
    (evs.foldl (step prod cons) s).consumed = s.consumed ++ deliveries prod cons st evs
  | [], s, past, st, _, _, _ => by simp [inbox, deliveries]
  | e :: es, s, past, st, hk, ha, hn => by
    have hop : opens (e :: es) = opens [e] ++ opens es := by
      cases e <;> rfl
    rw [hop, ← List.append_assoc] at hn
    have hfresh : ∀ c ∈ opens [e], c ∉ past := by
      intro c hc hp
      have := (List.nodup_append.mp (List.nodup_append.mp hn).1).2.2
      exact this c hp c hc rfl
    obtain ⟨i1, i2⟩ := run_from prod cons es (step prod cons s e) (past ++ opens [e])
      (fun c => (st c).next prod cons c e) (hk.step prod cons e hfresh)
      (fun c => (ha c).step hk prod cons e hfresh) hn
    refine ⟨fun c => ?_, ?_⟩
    · rw [List.foldl_cons, i1 c, step_sent hk prod cons (ha c) e, step_pending]
      simp only [inbox, List.append_assoc]
    · rw [List.foldl_cons, i2, step_consumed prod cons s st ha e]
      simp only [deliveries, List.append_assoc]

/-! ### C47 -/

theorem start_agrees (c : Nat) : Agrees c .absent {} :=
  ⟨fun _ => rfl, by simp, by simp, by simp⟩

/-- **C47.** For every series of connects, disconnects, incoming messages, immediate and delayed
emissions: each connection is sent exactly the data published for a sequence while the connection was
a subscriber of that sequence, each once and in the order of publication, and nothing else. -/
theorem C47_subscribers (prod cons : Bool) (evs : List Ev) (h : (opens evs).Nodup) (c : Nat) :
    (((run prod cons evs).sent).filter (·.1 = c)).map (·.2) = inbox prod cons c .absent [] evs := by
  have := (run_from prod cons evs {} [] (fun _ => .absent) ⟨by simp, by simp, by simp⟩ start_agrees (by simpa using h)).1 c
  simpa [run] using this

/-- What the consumer is handed is exactly what was sent on accepted publishing connections, in the
order of arrival and with the sequence identifier of the connection it came on. -/
theorem C47_publishers (prod cons : Bool) (evs : List Ev) (h : (opens evs).Nodup) :
    (run prod cons evs).consumed = deliveries prod cons (fun _ => .absent) evs := by
  have := (run_from prod cons evs {} [] (fun _ => .absent) ⟨by simp, by simp, by simp⟩ start_agrees (by simpa using h)).2
  simpa [run] using this

/-- Two subscribers of different sequences, a late one, one that talks, a publisher and a bad path. -/
def exWs : List Ev :=
  [.opened 1 ["a", "subscribe"], .opened 2 ["b", "subscribe"], .emit "a" "a1", .emit "b" "b1",
   .opened 3 ["a", "subscribe"], .opened 4 ["c", "publish"], .opened 5 ["a", "listen"], .emitLater "a" "late",
   .emit "a" "a2", .message 4 "in" false, .message 2 "out" false, .lost 1, .emit "a" "a3", .emit "b" "b2", .fire 0]

example : (opens exWs).Nodup ∧ (run true true exWs).sent =
    [(1, "a1"), (2, "b1"), (1, "a2"), (3, "a2"), (3, "a3"), (3, "late")] ∧
    (run true true exWs).consumed = [("c", "in")] := by decide +kernel

example : inbox true true 3 .absent [] exWs = ["a2", "a3", "late"] ∧ inbox true true 1 .absent [] exWs = ["a1", "a2"] ∧
    deliveries true true (fun _ => .absent) exWs = [("c", "in")] := by decide +kernel

/-- A publisher whose second message is refused: what it sends after that is not handed on. -/
example : (run true true [.opened 1 ["a", "publish"], .message 1 "one" false, .message 1 "two" true, .message 1 "three" false]).consumed
    = [("a", "one"), ("a", "two")] := by decide +kernel

/-- Delayed data can be overtaken: the order of publication is not the order of the calls. -/
theorem C47_false_delay_order :
    (run true true [.opened 1 ["a", "subscribe"], .emitLater "a" "first", .emit "a" "second", .fire 0]).sent
      = [(1, "second"), (1, "first")] := by decide +kernel

end Verif.Ws
