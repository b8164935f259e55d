import Verif.App.Model
import Verif.Adapt.ChainProps

/-!
# Applications (C64, C65, C66)
-/
namespace Verif.App

/-! ## Specification -/

/-- Node `n` reads the carriage in memory with this id. -/
def Reads (cfg : List NodeCfg) (n : Nat) (id : String) : Prop := ∃ c, cfg[n]? = some c ∧ c.input = some (.direct id)

/-- Node `n` writes to it. -/
def Writes (cfg : List NodeCfg) (n : Nat) (id : String) : Prop := ∃ c, cfg[n]? = some c ∧ c.output = some (.direct id)

/-- The listening addresses of outputs and of inputs. -/
def outAddresses (cs : List Comp) : List String :=
  cs.filterMap (fun | .wsOut _ (some u) _ => some u | _ => none)
def inAddresses (cs : List Comp) : List String :=
  cs.filterMap (fun | .wsIn _ (some u) _ => some u | _ => none)

/-- Before anything is started. -/
def noServers : Backend := ⟨[], []⟩

/-- Who sends to subscribers at an address, and who gets what is published there. -/
def Backend.sender (b : Backend) (url : String) : Option Nat := (b.server url).bind (·.producer)
def Backend.receiver (b : Backend) (url : String) : Option Nat := (b.server url).bind (·.consumer)

/-! ## Carriages in memory -/

/-- The registered consumer of an id. -/
def Wires.reader (w : Wires) (id : String) : Option Nat := (w.find id).bind (·.consumer)

theorem find_register (w : Wires) (id id' : String) (n : Nat) :
    (w.register id n).find id' = (w.find id').map (fun c => if id' = id then ⟨some n⟩ else c) := by
  unfold Wires.find Wires.register
  induction w with
  | nil => rfl
  | cons p w ih =>
    simp only [List.map_cons, List.find?_cons]
    by_cases h : p.1 = id
    · rw [if_pos h]
      by_cases h' : id = id'
      · have h2 : p.1 = id' := h.trans h'
        simp [h', h2]
      · have h2 : ¬ p.1 = id' := fun e => h' (h.symm.trans e)
        simp only [h', h2, decide_false]
        exact ih
    · rw [if_neg h]
      by_cases h' : p.1 = id'
      · have h2 : ¬ id' = id := fun e => h (h'.trans e)
        simp [h', h2]
      · simp only [h', decide_false]
        exact ih

theorem find_append (w : Wires) (id id' : String) (c : Carriage) :
    Wires.find (w ++ [(id, c)]) id' = (w.find id').or (if id = id' then some c else none) := by
  unfold Wires.find
  rw [List.find?_append]
  cases h : List.find? (fun p => decide (p.1 = id')) w with
  | some p => simp
  | none => by_cases h' : id = id' <;> simp [h']

theorem reader_touch (w : Wires) (id id' : String) : (w.touch id).reader id' = w.reader id' := by
  unfold Wires.touch
  cases h : w.find id with
  | some c => rfl
  | none =>
    simp only [Wires.reader, find_append]
    by_cases h' : id = id'
    · subst h'
      simp [h]
    · simp [h']

theorem touched (w : Wires) (id : String) : ((w.touch id).find id).isSome = true := by
  unfold Wires.touch
  cases h : w.find id with
  | some c => simp only; rw [h]; rfl
  | none => simp only [find_append]; simp

theorem reader_wireOutput (w : Wires) (e : Option End) (id : String) : (wireOutput w e).reader id = w.reader id := by
  cases e with
  | none => rfl
  | some e =>
    cases e with
    | direct i => exact reader_touch w i id
    | other => rfl

theorem reader_wireInput (w : Wires) (n : Nat) (e : Option End) (id : String) :
    (wireInput w n e).reader id = if e = some (.direct id) then some n else w.reader id := by
  cases e with
  | none => rfl
  | some e =>
    cases e with
    | other => rfl
    | direct i =>
      have h1 := reader_touch w i id
      have h2 := touched w i
      unfold Wires.reader at h1 ⊢
      simp only [wireInput, find_register]
      by_cases h : id = i
      · subst h
        cases hf : (w.touch id).find id with
        | none => rw [hf] at h2; cases h2
        | some c => simp
      · have h' : ¬ i = id := fun e => h e.symm
        rw [if_neg (by simp [h'])]
        rw [← h1]
        cases (w.touch i).find id <;> simp [h]

theorem reader_wireFrom (id : String) : ∀ (cs : List NodeCfg) (w : Wires) (n m : Nat),
    (wireFrom w n cs).reader id = some m ↔
      (∃ k, m = n + k ∧ Reads cs k id ∧ ∀ k', k < k' → ¬ Reads cs k' id) ∨
      ((∀ k, ¬ Reads cs k id) ∧ w.reader id = some m) := by
  intro cs
  induction cs with
  | nil =>
    intro w n m
    constructor
    · intro h
      exact .inr ⟨fun k ⟨c, hc, _⟩ => by simp at hc, h⟩
    · rintro (⟨k, _, ⟨c, hc, _⟩, _⟩ | h)
      · simp at hc
      · exact h.2
  | cons c cs ih =>
    intro w n m
    have hs : ∀ k, Reads (c :: cs) (k + 1) id ↔ Reads cs k id := fun k => by simp [Reads]
    have h0 : Reads (c :: cs) 0 id ↔ c.input = some (.direct id) := by simp [Reads]
    simp only [wireFrom]
    rw [ih, reader_wireOutput, reader_wireInput]
    constructor
    · rintro (⟨k, hm, hr, hl⟩ | ⟨hn, hr⟩)
      · refine .inl ⟨k + 1, by omega, (hs k).mpr hr, ?_⟩
        intro k' hk'
        cases k' with
        | zero => omega
        | succ k' => exact fun h => hl k' (by omega) ((hs k').mp h)
      · by_cases h : c.input = some (.direct id)
        · rw [if_pos h] at hr
          refine .inl ⟨0, by injection hr with hr; omega, h0.mpr h, ?_⟩
          intro k' hk'
          cases k' with
          | zero => omega
          | succ k' => exact fun h => hn k' ((hs k').mp h)
        · rw [if_neg h] at hr
          refine .inr ⟨?_, hr⟩
          intro k
          cases k with
          | zero => exact fun h' => h (h0.mp h')
          | succ k => exact fun h' => hn k ((hs k).mp h')
    · rintro (⟨k, hm, hr, hl⟩ | ⟨hn, hr⟩)
      · cases k with
        | zero =>
          refine .inr ⟨fun k' h => hl (k' + 1) (by omega) ((hs k').mpr h), ?_⟩
          rw [if_pos (h0.mp hr), hm]
          rfl
        | succ k =>
          exact .inl ⟨k, by omega, (hs k).mp hr, fun k' hk' h => hl (k' + 1) (by omega) ((hs k').mpr h)⟩
      · refine .inr ⟨fun k h => hn (k + 1) ((hs k).mpr h), ?_⟩
        rw [if_neg (fun h => hn 0 (h0.mpr h))]
        exact hr

theorem reader_wire (cfg : List NodeCfg) (id : String) (m : Nat) :
    (wire cfg).reader id = some m ↔ Reads cfg m id ∧ ∀ k, m < k → ¬ Reads cfg k id := by
  unfold wire
  rw [reader_wireFrom]
  constructor
  · rintro (⟨k, hm, hr, hl⟩ | ⟨_, h⟩)
    · have : m = k := by omega
      subst this
      exact ⟨hr, hl⟩
    · cases h
  · rintro ⟨hr, hl⟩
    exact .inl ⟨m, by omega, hr, hl⟩

/-- A last reader exists as soon as there is one. -/
theorem exists_last (cfg : List NodeCfg) (id : String) (k : Nat) (h : Reads cfg k id) :
    ∃ m, Reads cfg m id ∧ ∀ k, m < k → ¬ Reads cfg k id := by
  cases hw : (wire cfg).reader id with
  | some m => exact ⟨m, (reader_wire cfg id m).mp hw⟩
  | none =>
    -- no reader registered: then nobody reads
    exfalso
    have key : ∀ (cs : List NodeCfg) (w : Wires) (n k : Nat), Reads cs k id → (wireFrom w n cs).reader id ≠ none := by
      intro cs
      induction cs with
      | nil => intro w n k ⟨c, hc, _⟩; simp at hc
      | cons c cs ih =>
        intro w n k hk
        by_cases hex : ∃ k', Reads cs k' id
        · obtain ⟨k', hk'⟩ := hex
          exact ih _ _ k' hk'
        · have h0 : c.input = some (.direct id) := by
            cases k with
            | zero => simpa [Reads] using hk
            | succ k => exact absurd ⟨k, by simpa [Reads] using hk⟩ hex
          have := (reader_wireFrom id cs (wireOutput (wireInput w n c.input) c.output) (n + 1) n).mpr
            (.inr ⟨fun k' h => hex ⟨k', h⟩, by rw [reader_wireOutput, reader_wireInput, if_pos h0]⟩)
          simp only [wireFrom]
          rw [this]
          simp
    exact key cfg [] 0 k h hw

theorem nextOf_direct (cfg : List NodeCfg) (n : Nat) (id : String) (h : Writes cfg n id) :
    nextOf cfg n = match (wire cfg).reader id with | some m => .node m | none => .nobody := by
  obtain ⟨c, hc, ho⟩ := h
  simp only [nextOf, hc, Option.bind_some, ho]
  rfl

/-- **C64.** What a node writes to a carriage in memory is handed to one node: of those configured to read
that carriage, the last. -/
theorem C64_handed_to_last_reader (cfg : List NodeCfg) (n m : Nat) :
    nextOf cfg n = .node m ↔ ∃ id, Writes cfg n id ∧ Reads cfg m id ∧ ∀ k, m < k → ¬ Reads cfg k id := by
  constructor
  · intro h
    cases hb : cfg[n]?.bind (·.output) with
    | none => simp [nextOf, hb] at h
    | some e =>
      cases e with
      | other => simp [nextOf, hb] at h
      | direct id =>
        have hw : Writes cfg n id := by
          cases hc : cfg[n]? with
          | none => rw [hc] at hb; cases hb
          | some c => rw [hc] at hb; exact ⟨c, hc, hb⟩
        rw [nextOf_direct cfg n id hw] at h
        cases hr : (wire cfg).reader id with
        | none => rw [hr] at h; cases h
        | some m' =>
          rw [hr] at h
          injection h with h
          subst h
          exact ⟨id, hw, (reader_wire cfg id m').mp hr⟩
  · rintro ⟨id, hw, hr⟩
    rw [nextOf_direct cfg n id hw, (reader_wire cfg id m).mpr hr]

/-- **C64.** Writing fails exactly if the carriage is configured as output and no node reads it. -/
theorem C64_nobody_reads (cfg : List NodeCfg) (n : Nat) :
    nextOf cfg n = .nobody ↔ ∃ id, Writes cfg n id ∧ ∀ k, ¬ Reads cfg k id := by
  constructor
  · intro h
    cases hb : cfg[n]?.bind (·.output) with
    | none => simp [nextOf, hb] at h
    | some e =>
      cases e with
      | other => simp [nextOf, hb] at h
      | direct id =>
        have hw : Writes cfg n id := by
          cases hc : cfg[n]? with
          | none => rw [hc] at hb; cases hb
          | some c => rw [hc] at hb; exact ⟨c, hc, hb⟩
        refine ⟨id, hw, fun k hk => ?_⟩
        obtain ⟨m, hm⟩ := exists_last cfg id k hk
        rw [nextOf_direct cfg n id hw, (reader_wire cfg id m).mpr hm] at h
        cases h
  · rintro ⟨id, hw, hr⟩
    rw [nextOf_direct cfg n id hw]
    cases h : (wire cfg).reader id with
    | none => rfl
    | some m => exact absurd ((reader_wire cfg id m).mp h).1 (hr m)

/-- C64 is false of "every node configured to read a carriage gets what is written to it": with two readers,
the one configured first never gets anything from anyone. -/
theorem C64_false_two_readers (cfg : List NodeCfg) (id : String) (i j : Nat) (hij : i < j) (hi : Reads cfg i id)
    (hj : Reads cfg j id) (n : Nat) : nextOf cfg n ≠ .node i := by
  intro h
  obtain ⟨id', _, hr, hl⟩ := (C64_handed_to_last_reader cfg n i).mp h
  have : id' = id := by
    obtain ⟨c, hc, h1⟩ := hi
    obtain ⟨c', hc', h2⟩ := hr
    rw [hc] at hc'
    injection hc' with hc'
    subst hc'
    rw [h1] at h2
    injection h2 with h2
    injection h2 with h2
    exact h2.symm
  rw [this] at hl
  exact hl j hij hj

theorem inTurn_not {α β ε : Type} (f : α → Except (Err ε) (List β)) (ys : List α) (h : ∀ y ∈ ys, f y ≠ .error .recursion) :
    inTurn f ys ≠ .error .recursion := by
  induction ys with
  | nil => simp [inTurn]
  | cons y ys ih =>
    simp only [inTurn]
    have h1 := h y (by simp)
    cases hy : f y with
    | error e => rw [hy] at h1; simpa using h1
    | ok l =>
      have h2 := ih (fun z hz => h z (by simp [hz]))
      simp only
      cases hr : inTurn f ys with
      | error e => rw [hr] at h2; simpa using h2
      | ok l' => simp

/-- **C64.** Emitting to a carriage that nobody reads fails. -/
theorem C64_nobody_fails {α ε : Type} (cfg : List NodeCfg) (beh : Nat → α → Except ε (List α)) (depth n : Nat) (x : α) (id : String)
    (hw : Writes cfg n id) (hr : ∀ k, ¬ Reads cfg k id) : emit cfg beh (depth + 1) n x = .error .nobody := by
  rw [emit, (C64_nobody_reads cfg n).2 ⟨id, hw, hr⟩]

theorem inTurn_ne {α β ε : Type} (bad : Err ε) (f : α → Except (Err ε) (List β)) (ys : List α) (h : ∀ y ∈ ys, f y ≠ .error bad) :
    inTurn f ys ≠ .error bad := by
  induction ys with
  | nil => simp [inTurn]
  | cons y ys ih =>
    simp only [inTurn]
    have h1 := h y (by simp)
    cases hy : f y with
    | error e => rw [hy] at h1; simpa using h1
    | ok l =>
      have h2 := ih (fun z hz => h z (by simp [hz]))
      simp only
      cases hr : inTurn f ys with
      | error e => rw [hr] at h2; simpa using h2
      | ok l' => simp

/-- **C64.** It never fails for that reason if every carriage in memory that is written is read. -/
theorem C64_all_read {α ε : Type} (cfg : List NodeCfg) (beh : Nat → α → Except ε (List α))
    (hall : ∀ n id, Writes cfg n id → ∃ k, Reads cfg k id) (depth n : Nat) (x : α) : emit cfg beh depth n x ≠ .error .nobody := by
  induction depth generalizing n x with
  | zero => simp [emit]
  | succ depth ih =>
    simp only [emit]
    cases hn : nextOf cfg n with
    | out => simp
    | nobody =>
      obtain ⟨id, hw, hr⟩ := (C64_nobody_reads cfg n).1 hn
      obtain ⟨k, hk⟩ := hall n id hw
      exact absurd hk (hr k)
    | node m =>
      simp only
      cases beh m x with
      | error e => simp
      | ok ys => exact inTurn_ne _ _ _ (fun y _ => ih m y)

/-- A node whose output nobody reads, and two nodes joined by a carriage. -/
example : emit (ε := Nat) [⟨none, some (.direct "a")⟩] (fun _ x => .ok [x]) 5 0 "x" = .error .nobody ∧
    emit (ε := Nat) [⟨none, some (.direct "a")⟩, ⟨some (.direct "a"), none⟩] (fun _ x => .ok [x, x]) 5 0 "x" = .ok [(1, "x"), (1, "x")] := by
  constructor <;> rfl

/-- **C64.** Where data is only handed from node to node towards some end, which is so if every carriage in
memory is written by nodes configured before its reader, handing it on ends, however many documents the nodes
make of one: nested calls go no deeper than the number of nodes. -/
theorem C64_ends {α ε : Type} (cfg : List NodeCfg) (beh : Nat → α → Except ε (List α)) (rank : Nat → Nat)
    (hrank : ∀ n m, nextOf cfg n = .node m → rank m < rank n) (depth n : Nat) (x : α) (hd : rank n < depth) :
    emit cfg beh depth n x ≠ .error .recursion := by
  induction depth generalizing n x with
  | zero => omega
  | succ depth ih =>
    simp only [emit]
    cases hn : nextOf cfg n with
    | out => simp
    | nobody => simp
    | node m =>
      simp only
      cases beh m x with
      | error e => simp
      | ok ys => exact inTurn_not _ _ (fun y _ => ih m y (by have := hrank n m hn; omega))

theorem C64_ends_in_order {α ε : Type} (cfg : List NodeCfg) (beh : Nat → α → Except ε (List α))
    (horder : ∀ n m id, Writes cfg n id → Reads cfg m id → n < m) (n : Nat) (x : α) :
    emit cfg beh (cfg.length + 1) n x ≠ .error .recursion := by
  refine C64_ends cfg beh (fun k => cfg.length - k) ?_ _ n x (by omega)
  intro n m h
  obtain ⟨id, hw, hr, _⟩ := (C64_handed_to_last_reader cfg n m).mp h
  have h1 := horder n m id hw hr
  obtain ⟨c, hc, _⟩ := hr
  have h2 : m < cfg.length := by
    rcases Nat.lt_or_ge m cfg.length with h | h
    · exact h
    · rw [List.getElem?_eq_none h] at hc; cases hc
  omega

/-- C64 is false of cycles: if nodes hand data round and each passes on at least one datum, no depth of calls
is enough. -/
theorem C64_false_cycle {α ε : Type} (cfg : List NodeCfg) (beh : Nat → α → Except ε (List α)) (S : Nat → Prop)
    (hS : ∀ n, S n → ∃ m, nextOf cfg n = .node m ∧ S m) (hb : ∀ m x, S m → ∃ y ys, beh m x = .ok (y :: ys))
    (depth n : Nat) (x : α) (hn : S n) : emit cfg beh depth n x = .error .recursion := by
  induction depth generalizing n x with
  | zero => rfl
  | succ depth ih =>
    obtain ⟨m, hm, hSm⟩ := hS n hn
    obtain ⟨y, ys, hy⟩ := hb m x hSm
    simp only [emit, hm, hy, inTurn, ih m y hSm]

/-- Three nodes one after the other, and two that feed each other. -/
def exLine : List NodeCfg :=
  [⟨none, some (.direct "a")⟩, ⟨some (.direct "a"), some (.direct "b")⟩, ⟨some (.direct "b"), some .other⟩]
def exLoop : List NodeCfg :=
  [⟨some (.direct "b"), some (.direct "a")⟩, ⟨some (.direct "a"), some (.direct "b")⟩]
def exTwo : List NodeCfg :=
  [⟨none, some (.direct "a")⟩, ⟨some (.direct "a"), some .other⟩, ⟨some (.direct "a"), some .other⟩]

example : nextOf exLine 0 = .node 1 ∧ nextOf exLine 1 = .node 2 ∧ nextOf exLine 2 = .out := by decide
example : emit exLine (fun _ x => (.ok [x, x + 1] : Except Unit (List Nat))) 4 0 10 = .ok [(2, 10), (2, 11), (2, 11), (2, 12)] := by
  rfl
example : nextOf exLoop 0 = .node 1 ∧ nextOf exLoop 1 = .node 0 := by decide
example : nextOf exTwo 0 = .node 2 := by decide
example : nextOf [⟨none, some (.direct "a")⟩, ⟨some (.direct "b"), none⟩] 0 = .nobody := by decide

example (depth : Nat) : emit exLoop (fun _ x => (.ok [x] : Except Unit (List Nat))) depth 0 7 = .error .recursion :=
  C64_false_cycle exLoop _ (fun n => n = 0 ∨ n = 1)
    (by rintro n (h | h) <;> subst h; exact ⟨1, by decide, .inr rfl⟩; exact ⟨0, by decide, .inl rfl⟩)
    (fun m x _ => ⟨x, [], rfl⟩) depth 0 7 (.inl rfl)

/-! ### A line of nodes is a chain -/

open Verif.Adapt in
/-- What a node in the line does: the stages of its input adapters, of the node itself and of its output
adapters. -/
def behave (X : Codec) (parts : Nat → List Stage) (m : Nat) (p : Data × Kw) : Except Verif.Adapt.Err (List (Data × Kw)) :=
  (runChain X (parts m) p.1 p.2).map Option.toList

open Verif.Adapt in
/-- The result of a chain, as what leaves the application at its last node. -/
def leaves (last : Nat) : Except Verif.Adapt.Err (Option (Data × Kw)) → Except (Err Verif.Adapt.Err) (List (Nat × (Data × Kw)))
  | .error e => .error (.node e)
  | .ok none => .ok []
  | .ok (some p) => .ok [(last, p)]

open Verif.Adapt in
/-- **C64.** In nodes joined in a line, a datum emitted by the first goes through the stages of all the others,
in their order, and leaves at the last: the chains of `Verif.Adapt.runChain` are what such an application
does. -/
theorem C64_line_is_chain (X : Codec) (cfg : List NodeCfg) (parts : Nat → List Stage) (k : Nat)
    (hline : ∀ i, i < k → nextOf cfg i = .node (i + 1)) (hend : nextOf cfg k = .out) (x : Data) (kw : Kw) :
    emit cfg (behave X parts) (k + 1) 0 (x, kw)
      = leaves k (runChain X ((List.range k).flatMap (fun i => parts (i + 1))) x kw) := by
  have key : ∀ (j i : Nat) (x : Data) (kw : Kw), i + j = k →
      emit cfg (behave X parts) (j + 1) i (x, kw)
        = leaves k (runChain X ((List.range' i j).flatMap (fun i => parts (i + 1))) x kw) := by
    intro j
    induction j with
    | zero =>
      intro i x kw h
      have : i = k := by omega
      subst this
      simp [emit, hend, runChain, leaves]
    | succ j ih =>
      intro i x kw h
      have he : emit cfg (behave X parts) (j + 1 + 1) i (x, kw) =
          match behave X parts (i + 1) (x, kw) with
          | .error e => .error (.node e)
          | .ok ys => inTurn (emit cfg (behave X parts) (j + 1) (i + 1)) ys := by
        rw [emit, hline i (by omega)]
        simp only
        cases behave X parts (i + 1) (x, kw) <;> rfl
      rw [he, List.range'_succ, List.flatMap_cons, runChain_append]
      cases hr : runChain X (parts (i + 1)) x kw with
      | error e => simp [behave, hr, Except.map, leaves]
      | ok r =>
        cases r with
        | none => simp [behave, hr, Except.map, leaves, inTurn]
        | some p =>
          simp only [behave, hr, Except.map, Option.toList, inTurn]
          rw [ih (i + 1) p.1 p.2 (by omega)]
          cases runChain X ((List.range' (i + 1) j).flatMap (fun i => parts (i + 1))) p.1 p.2 with
          | error e => rfl
          | ok r => cases r <;> rfl
  have := key k 0 x kw (by omega)
  rwa [← List.range_eq_range'] at this

/-- The line above is one. -/
example : (∀ i, i < 2 → nextOf exLine i = .node (i + 1)) ∧ nextOf exLine 2 = .out := by
  refine ⟨fun i hi => ?_, by decide⟩
  have : i = 0 ∨ i = 1 := by omega
  rcases this with h | h <;> subst h <;> decide

/-! ## Websocket servers -/

theorem server_append (b : Backend) (url url' : String) (s : Server) (h : b.server url = none) :
    Backend.server { b with servers := b.servers ++ [(url, s)] } url' = if url = url' then some s else b.server url' := by
  unfold Backend.server at h ⊢
  simp only [List.find?_append]
  by_cases h' : url = url'
  · subst h'
    cases hf : List.find? (fun p => decide (p.1 = url)) b.servers with
    | some p => rw [hf] at h; cases h
    | none => simp
  · rw [if_neg h']
    cases List.find? (fun p => decide (p.1 = url')) b.servers with
    | some p => rfl
    | none => simp [h']

theorem server_set (b : Backend) (url url' : String) (s s' : Server) (h : b.server url = some s') :
    (b.setServer url s).server url' = if url = url' then some s else b.server url' := by
  obtain ⟨servers, clients⟩ := b
  unfold Backend.server at h ⊢
  simp only [Backend.setServer] at h ⊢
  induction servers with
  | nil => cases h
  | cons p l ih =>
    simp only [List.map_cons, List.find?_cons] at h ⊢
    by_cases hp : p.1 = url
    · rw [if_pos hp]
      by_cases h' : url = url'
      · simp [h']
      · have h2 : ¬ p.1 = url' := fun e => h' (hp.symm.trans e)
        simp only [h', h2, decide_false, if_false]
        clear ih h
        congr 1
        induction l with
        | nil => rfl
        | cons q l ih =>
          simp only [List.map_cons, List.find?_cons]
          by_cases hq : q.1 = url
          · have h3 : ¬ q.1 = url' := fun e => h' (hq.symm.trans e)
            rw [if_pos hq]
            simp only [h', h3, decide_false]
            exact ih
          · rw [if_neg hq]
            by_cases h4 : q.1 = url'
            · simp [h4]
            · simp only [h4, decide_false]
              exact ih
    · rw [if_neg hp]
      simp only [hp, decide_false] at h
      by_cases h' : p.1 = url'
      · have h2 : ¬ url = url' := fun e => hp (h'.trans e.symm)
        simp [h', h2]
      · simp only [h', decide_false]
        exact ih h

theorem listenOut_none (b : Backend) (id : Nat) : listenOut b id none = .ok b := rfl
theorem listenIn_none (b : Backend) (id : Nat) : listenIn b id none = .ok b := rfl

/-- Listening as an output works if nobody sends there yet; then this output does, and nothing else changes. -/
theorem listenOut_some (b : Backend) (id : Nat) (url : String) :
    (b.sender url ≠ none → listenOut b id (some url) = .error .taken) ∧
    (b.sender url = none → ∃ b', listenOut b id (some url) = .ok b' ∧ b'.clients = b.clients ∧
      ∀ u, b'.sender u = (if url = u then some id else b.sender u) ∧ b'.receiver u = b.receiver u) := by
  unfold Backend.sender Backend.receiver
  constructor
  · intro h
    cases hs : b.server url with
    | none => rw [hs] at h; exact absurd rfl h
    | some s =>
      rw [hs] at h
      simp only [Option.bind_some] at h
      cases hp : s.producer with
      | none => exact absurd hp h
      | some p => simp [listenOut, hs, hp]
  · intro h
    cases hs : b.server url with
    | none =>
      refine ⟨{ b with servers := b.servers ++ [(url, ⟨some id, none⟩)] }, by simp [listenOut, hs], rfl, fun u => ?_⟩
      rw [server_append b url u _ hs]
      by_cases hu : url = u
      · subst hu
        simp [hs]
      · simp [hu]
    | some s =>
      rw [hs] at h
      simp only [Option.bind_some] at h
      refine ⟨b.setServer url { s with producer := some id }, by simp [listenOut, hs, h], rfl, fun u => ?_⟩
      rw [server_set b url u _ s hs]
      by_cases hu : url = u
      · subst hu
        simp [hs]
      · simp [hu]

theorem listenIn_some (b : Backend) (id : Nat) (url : String) :
    (b.receiver url ≠ none → listenIn b id (some url) = .error .taken) ∧
    (b.receiver url = none → ∃ b', listenIn b id (some url) = .ok b' ∧ b'.clients = b.clients ∧
      ∀ u, b'.receiver u = (if url = u then some id else b.receiver u) ∧ b'.sender u = b.sender u) := by
  unfold Backend.sender Backend.receiver
  constructor
  · intro h
    cases hs : b.server url with
    | none => rw [hs] at h; exact absurd rfl h
    | some s =>
      rw [hs] at h
      simp only [Option.bind_some] at h
      cases hp : s.consumer with
      | none => exact absurd hp h
      | some p => simp [listenIn, hs, hp]
  · intro h
    cases hs : b.server url with
    | none =>
      refine ⟨{ b with servers := b.servers ++ [(url, ⟨none, some id⟩)] }, by simp [listenIn, hs], rfl, fun u => ?_⟩
      rw [server_append b url u _ hs]
      by_cases hu : url = u
      · subst hu
        simp [hs]
      · simp [hu]
    | some s =>
      rw [hs] at h
      simp only [Option.bind_some] at h
      refine ⟨b.setServer url { s with consumer := some id }, by simp [listenIn, hs, h], rfl, fun u => ?_⟩
      rw [server_set b url u _ s hs]
      by_cases hu : url = u
      · subst hu
        simp [hs]
      · simp [hu]

/-- When a set of components can still be started, and what there is then. -/
def CanStart (b : Backend) (cs : List Comp) : Prop :=
  (outAddresses cs).Nodup ∧ (inAddresses cs).Nodup ∧ (∀ id uri, Comp.legacyOut id uri ∉ cs) ∧
  (∀ u ∈ outAddresses cs, b.sender u = none) ∧ (∀ u ∈ inAddresses cs, b.receiver u = none)

/-- The connections a component makes. -/
def clientsOf : Comp → List Client
  | .wsOut id _ connect => connect.map (fun u => ⟨u, some id, none⟩)
  | .wsIn id _ connect => connect.map (fun u => ⟨u, none, some id⟩)
  | .legacyIn id uri => [⟨uri, none, some id⟩]
  | _ => []

theorem startAll_ok : ∀ (cs : List Comp) (b : Backend), CanStart b cs →
    ∃ b', startAll b cs = .ok b' ∧ b'.clients = b.clients ++ cs.flatMap clientsOf ∧
      (∀ u id, b'.sender u = some id ↔ b.sender u = some id ∨ ∃ l, Comp.wsOut id (some u) l ∈ cs) ∧
      (∀ u id, b'.receiver u = some id ↔ b.receiver u = some id ∨ ∃ l, Comp.wsIn id (some u) l ∈ cs) := by
  intro cs
  induction cs with
  | nil => intro b _; exact ⟨b, rfl, by simp, by simp, by simp⟩
  | cons c cs ih =>
    intro b ⟨h1, h2, h3, h4, h5⟩
    have h3' : ∀ id uri, Comp.legacyOut id uri ∉ cs := fun id uri h => h3 id uri (by simp [h])
    cases c with
    | other =>
      obtain ⟨b', hb, hc, hs, hr⟩ := ih b ⟨h1, h2, h3', h4, h5⟩
      refine ⟨b', by simpa [startAll, startOne] using hb, by simpa [clientsOf] using hc, ?_, ?_⟩
      · intro u id; rw [hs]; simp
      · intro u id; rw [hr]; simp
    | legacyOut id uri => exact absurd List.mem_cons_self (h3 id uri)
    | legacyIn i uri =>
      obtain ⟨b', hb, hc, hs, hr⟩ := ih { b with clients := b.clients ++ [⟨uri, none, some i⟩] } ⟨h1, h2, h3', h4, h5⟩
      refine ⟨b', by simpa [startAll, startOne] using hb, by rw [hc]; simp [clientsOf], ?_, ?_⟩
      · intro u id; rw [hs]; simp; rfl
      · intro u id; rw [hr]; simp; rfl
    | wsOut i listen connect =>
      cases listen with
      | none =>
        obtain ⟨b', hb, hc, hs, hr⟩ := ih { b with clients := b.clients ++ connect.map (fun u => ⟨u, some i, none⟩) }
          ⟨h1, h2, h3', h4, h5⟩
        refine ⟨b', by simpa [startAll, startOne, listenOut, Except.map] using hb, by rw [hc]; simp [clientsOf], ?_, ?_⟩
        · intro u id; rw [hs]; simp; rfl
        · intro u id; rw [hr]; simp; rfl
      | some url =>
        have e1 : outAddresses (.wsOut i (some url) connect :: cs) = url :: outAddresses cs := rfl
        have e2 : inAddresses (.wsOut i (some url) connect :: cs) = inAddresses cs := rfl
        rw [e1] at h1 h4
        rw [e2] at h2 h5
        obtain ⟨hnot, h1'⟩ := List.nodup_cons.mp h1
        obtain ⟨b1, hl, hcl, hq⟩ := (listenOut_some b i url).2 (h4 url (by simp))
        have hcan : CanStart { b1 with clients := b1.clients ++ connect.map (fun u => ⟨u, some i, none⟩) } cs := by
          refine ⟨h1', h2, h3', fun u hu => ?_, fun u hu => ?_⟩
          · show b1.sender u = none
            rw [(hq u).1, if_neg (fun e : url = u => hnot (e ▸ hu))]
            exact h4 u (by simp [hu])
          · show b1.receiver u = none
            rw [(hq u).2]
            exact h5 u hu
        obtain ⟨b', hb, hc, hs, hr⟩ := ih _ hcan
        · refine ⟨b', by simpa [startAll, startOne, hl, Except.map] using hb, by rw [hc]; simp [clientsOf, hcl], ?_, ?_⟩
          · intro u id
            rw [hs]
            have := (hq u).1
            show b1.sender u = some id ∨ _ ↔ _
            rw [this]
            by_cases hu : url = u
            · subst hu
              have hn := h4 url (by simp)
              simp [hn]
              constructor
              · rintro (h | ⟨l, h⟩)
                · exact ⟨connect, .inl ⟨h.symm, rfl⟩⟩
                · exact ⟨l, .inr h⟩
              · rintro ⟨l, h | h⟩
                · exact .inl h.1.symm
                · exact .inr ⟨l, h⟩
            · have hu' : ¬ u = url := fun e => hu e.symm
              simp [hu, hu']
          · intro u id
            rw [hr]
            show b1.receiver u = some id ∨ _ ↔ _
            rw [(hq u).2]
            simp
    | wsIn i listen connect =>
      cases listen with
      | none =>
        obtain ⟨b', hb, hc, hs, hr⟩ := ih { b with clients := b.clients ++ connect.map (fun u => ⟨u, none, some i⟩) }
          ⟨h1, h2, h3', h4, h5⟩
        refine ⟨b', by simpa [startAll, startOne, listenIn, Except.map] using hb, by rw [hc]; simp [clientsOf], ?_, ?_⟩
        · intro u id; rw [hs]; simp; rfl
        · intro u id; rw [hr]; simp; rfl
      | some url =>
        have e1 : outAddresses (.wsIn i (some url) connect :: cs) = outAddresses cs := rfl
        have e2 : inAddresses (.wsIn i (some url) connect :: cs) = url :: inAddresses cs := rfl
        rw [e1] at h1 h4
        rw [e2] at h2 h5
        obtain ⟨hnot, h2'⟩ := List.nodup_cons.mp h2
        obtain ⟨b1, hl, hcl, hq⟩ := (listenIn_some b i url).2 (h5 url (by simp))
        have hcan : CanStart { b1 with clients := b1.clients ++ connect.map (fun u => ⟨u, none, some i⟩) } cs := by
          refine ⟨h1, h2', h3', fun u hu => ?_, fun u hu => ?_⟩
          · show b1.sender u = none
            rw [(hq u).2]
            exact h4 u hu
          · show b1.receiver u = none
            rw [(hq u).1, if_neg (fun e : url = u => hnot (e ▸ hu))]
            exact h5 u (by simp [hu])
        obtain ⟨b', hb, hc, hs, hr⟩ := ih _ hcan
        · refine ⟨b', by simpa [startAll, startOne, hl, Except.map] using hb, by rw [hc]; simp [clientsOf, hcl], ?_, ?_⟩
          · intro u id
            rw [hs]
            show b1.sender u = some id ∨ _ ↔ _
            rw [(hq u).2]
            simp
          · intro u id
            rw [hr]
            have := (hq u).1
            show b1.receiver u = some id ∨ _ ↔ _
            rw [this]
            by_cases hu : url = u
            · subst hu
              have hn := h5 url (by simp)
              simp [hn]
              constructor
              · rintro (h | ⟨l, h⟩)
                · exact ⟨connect, .inl ⟨h.symm, rfl⟩⟩
                · exact ⟨l, .inr h⟩
              · rintro ⟨l, h | h⟩
                · exact .inl h.1.symm
                · exact .inr ⟨l, h⟩
            · have hu' : ¬ u = url := fun e => hu e.symm
              simp [hu, hu']

theorem startAll_needs : ∀ (cs : List Comp) (b b' : Backend), startAll b cs = .ok b' → CanStart b cs := by
  intro cs
  induction cs with
  | nil =>
    intro b b' _
    exact ⟨List.nodup_nil, List.nodup_nil, by simp, by simp [outAddresses], by simp [inAddresses]⟩
  | cons c cs ih =>
    intro b b' h
    cases c with
    | other =>
      obtain ⟨h1, h2, h3, h4, h5⟩ := ih b b' (by simpa [startAll, startOne] using h)
      exact ⟨h1, h2, by simpa using h3, h4, h5⟩
    | legacyOut id uri =>
      simp only [startAll, startOne] at h
      split at h
      · cases h
      · rename_i heq
        split at heq <;> cases heq
    | legacyIn i uri =>
      obtain ⟨h1, h2, h3, h4, h5⟩ := ih _ b' (by simpa [startAll, startOne] using h)
      exact ⟨h1, h2, by simpa using h3, h4, h5⟩
    | wsOut i listen connect =>
      cases listen with
      | none =>
        obtain ⟨h1, h2, h3, h4, h5⟩ := ih _ b' (by simpa [startAll, startOne, listenOut, Except.map] using h)
        exact ⟨h1, h2, by simpa using h3, h4, h5⟩
      | some url =>
        by_cases hn : b.sender url = none
        · obtain ⟨b1, hl, hcl, hq⟩ := (listenOut_some b i url).2 hn
          obtain ⟨h1, h2, h3, h4, h5⟩ := ih _ b' (by simpa [startAll, startOne, hl, Except.map] using h)
          have h4' : ∀ u ∈ outAddresses cs, b1.sender u = none := h4
          have h5' : ∀ u ∈ inAddresses cs, b1.receiver u = none := h5
          refine ⟨?_, h2, by simpa using h3, ?_, ?_⟩
          · refine List.nodup_cons.mpr ⟨fun hm => ?_, h1⟩
            have := h4' url hm
            rw [(hq url).1] at this
            simp at this
          · intro u hu
            rcases List.mem_cons.mp (show u ∈ url :: outAddresses cs from hu) with hu | hu
            · rw [hu]; exact hn
            · have := h4' u hu
              rw [(hq u).1] at this
              split at this
              · cases this
              · exact this
          · intro u hu
            have := h5' u hu
            rw [(hq u).2] at this
            exact this
        · simp [startAll, startOne, (listenOut_some b i url).1 hn, Except.map] at h
    | wsIn i listen connect =>
      cases listen with
      | none =>
        obtain ⟨h1, h2, h3, h4, h5⟩ := ih _ b' (by simpa [startAll, startOne, listenIn, Except.map] using h)
        exact ⟨h1, h2, by simpa using h3, h4, h5⟩
      | some url =>
        by_cases hn : b.receiver url = none
        · obtain ⟨b1, hl, hcl, hq⟩ := (listenIn_some b i url).2 hn
          obtain ⟨h1, h2, h3, h4, h5⟩ := ih _ b' (by simpa [startAll, startOne, hl, Except.map] using h)
          have h4' : ∀ u ∈ outAddresses cs, b1.sender u = none := h4
          have h5' : ∀ u ∈ inAddresses cs, b1.receiver u = none := h5
          refine ⟨h1, ?_, by simpa using h3, ?_, ?_⟩
          · refine List.nodup_cons.mpr ⟨fun hm => ?_, h2⟩
            have := h5' url hm
            rw [(hq url).1] at this
            simp at this
          · intro u hu
            have := h4' u hu
            rw [(hq u).2] at this
            exact this
          · intro u hu
            rcases List.mem_cons.mp (show u ∈ url :: inAddresses cs from hu) with hu | hu
            · rw [hu]; exact hn
            · have := h5' u hu
              rw [(hq u).1] at this
              split at this
              · cases this
              · exact this
        · simp [startAll, startOne, (listenIn_some b i url).1 hn, Except.map] at h

/-- **C65.** An application's carriages start, in whatever order, exactly if no two websocket outputs listen on
one address, no two inputs do, and there is no legacy output. -/
theorem C65_starts_iff (cs : List Comp) :
    (∃ b, startAll noServers cs = .ok b) ↔
      (outAddresses cs).Nodup ∧ (inAddresses cs).Nodup ∧ ∀ id uri, Comp.legacyOut id uri ∉ cs := by
  constructor
  · rintro ⟨b, h⟩
    obtain ⟨h1, h2, h3, _⟩ := startAll_needs cs _ b h
    exact ⟨h1, h2, h3⟩
  · rintro ⟨h1, h2, h3⟩
    obtain ⟨b, hb, _⟩ := startAll_ok cs noServers ⟨h1, h2, h3, fun _ _ => rfl, fun _ _ => rfl⟩
    exact ⟨b, hb⟩

/-- **C65.** Once started, subscribers at an address are sent the documents of the output configured to listen
there, what is published there goes to the input configured to listen there, an output and an input may share
an address, and every configured connection is made for its component. -/
theorem C65_wired_as_configured (cs : List Comp) (b : Backend) (h : startAll noServers cs = .ok b) :
    (∀ u id, b.sender u = some id ↔ ∃ l, Comp.wsOut id (some u) l ∈ cs) ∧
    (∀ u id, b.receiver u = some id ↔ ∃ l, Comp.wsIn id (some u) l ∈ cs) ∧
    (∀ c, c ∈ b.clients ↔ ∃ k ∈ cs, c ∈ clientsOf k) := by
  obtain ⟨b', hb, hc, hs, hr⟩ := startAll_ok cs noServers (startAll_needs cs _ b h)
  rw [h] at hb
  injection hb with hb
  subst hb
  refine ⟨fun u id => ?_, fun u id => ?_, fun c => ?_⟩
  · rw [hs]
    exact ⟨fun h => h.resolve_left (by simp [noServers, Backend.sender, Backend.server]), .inr⟩
  · rw [hr]
    exact ⟨fun h => h.resolve_left (by simp [noServers, Backend.receiver, Backend.server]), .inr⟩
  · rw [hc]
    simp [noServers]

/-- **C65.** The order in which components are started makes no difference: all of them start in every order or
in none, and the same output and input serve each address. -/
theorem C65_any_order (cs cs' : List Comp) (hp : cs.Perm cs') :
    ((∃ b, startAll noServers cs = .ok b) ↔ ∃ b, startAll noServers cs' = .ok b) ∧
    ∀ b b', startAll noServers cs = .ok b → startAll noServers cs' = .ok b' →
      ∀ u, b.sender u = b'.sender u ∧ b.receiver u = b'.receiver u := by
  constructor
  · rw [C65_starts_iff, C65_starts_iff]
    have h1 : (outAddresses cs).Perm (outAddresses cs') := hp.filterMap _
    have h2 : (inAddresses cs).Perm (inAddresses cs') := hp.filterMap _
    rw [h1.nodup_iff, h2.nodup_iff]
    constructor
    · rintro ⟨a, b, c⟩; exact ⟨a, b, fun id uri h => c id uri (hp.mem_iff.mpr h)⟩
    · rintro ⟨a, b, c⟩; exact ⟨a, b, fun id uri h => c id uri (hp.mem_iff.mp h)⟩
  · intro b b' h h' u
    obtain ⟨s1, r1, _⟩ := C65_wired_as_configured cs b h
    obtain ⟨s2, r2, _⟩ := C65_wired_as_configured cs' b' h'
    constructor
    · apply Option.ext
      intro id
      rw [s1, s2]
      exact ⟨fun ⟨l, hl⟩ => ⟨l, hp.mem_iff.mp hl⟩, fun ⟨l, hl⟩ => ⟨l, hp.mem_iff.mpr hl⟩⟩
    · apply Option.ext
      intro id
      rw [r1, r2]
      exact ⟨fun ⟨l, hl⟩ => ⟨l, hp.mem_iff.mp hl⟩, fun ⟨l, hl⟩ => ⟨l, hp.mem_iff.mpr hl⟩⟩

/-- An output and an input on one address, and a second output there. -/
example : startAll noServers [.wsOut 0 (some "ws://h:1") ["ws://h:2/s/publish"], .wsIn 1 (some "ws://h:1") [], .other]
    = .ok ⟨[("ws://h:1", ⟨some 0, some 1⟩)], [⟨"ws://h:2/s/publish", some 0, none⟩]⟩ := by rfl
example : startAll noServers [.wsOut 0 (some "ws://h:1") [], .wsIn 1 (some "ws://h:1") [], .wsOut 2 (some "ws://h:1") []]
    = .error .taken := by rfl

/-! ## Finding a node -/

theorem nodeList_take {α : Type} (slots : List (Option α)) (j : Nat) (a : α) (h : slots[j]? = some (some a)) :
    (nodeList slots)[(nodeList (slots.take j)).length]? = some a := by
  induction slots generalizing j with
  | nil => simp at h
  | cons s ss ih =>
    cases j with
    | zero =>
      simp only [List.getElem?_cons_zero, Option.some.injEq] at h
      subst h
      simp [nodeList]
    | succ j =>
      simp only [List.getElem?_cons_succ] at h
      have := ih j h
      cases s with
      | none => simpa [nodeList] using this
      | some b => simpa [nodeList] using this

theorem nodeList_length_lt {α : Type} (slots : List (Option α)) (h : none ∈ slots) :
    (nodeList slots).length < slots.length := by
  induction slots with
  | nil => simp at h
  | cons s ss ih =>
    cases s with
    | none =>
      have : (nodeList ss).length ≤ ss.length := List.length_filterMap_le _ _
      simp only [nodeList, List.filterMap_cons, id_eq, List.length_cons] at *
      omega
    | some b =>
      have := ih (by simpa using h)
      simp only [nodeList, List.filterMap_cons, id_eq, List.length_cons] at *
      omega

theorem nodeList_full {α : Type} (slots : List (Option α)) (h : none ∉ slots) :
    (nodeList slots).length = slots.length := by
  induction slots with
  | nil => rfl
  | cons s ss ih =>
    cases s with
    | none => simp at h
    | some b =>
      have := ih (by simpa using h)
      simp only [nodeList, List.filterMap_cons, id_eq, List.length_cons] at *
      omega

/-- **C66 (part).** Of nodes that are all different, asking for a configured node by its name finds that node
exactly if every node slot before it is configured too. -/
theorem C66_found_iff_partial {α : Type} (slots : List (Option α)) (k : Nat) (a : α) (hnodup : (nodeList slots).Nodup)
    (h : slots[k]? = some (some a)) : getNode slots (k + 1) = some a ↔ none ∉ slots.take k := by
  have hpos := nodeList_take slots k a h
  have hget : getNode slots (k + 1) = (nodeList slots)[k]? := by
    unfold getNode pyIndex
    rw [if_pos (by omega)]
    congr 1
    omega
  have hk : k < slots.length := by
    rcases Nat.lt_or_ge k slots.length with h' | h'
    · exact h'
    · rw [List.getElem?_eq_none h'] at h; cases h
  have htake : (slots.take k).length = k := by simp; omega
  rw [hget]
  constructor
  · intro h1 hm
    have hlt := nodeList_length_lt _ hm
    rw [htake] at hlt
    obtain ⟨hi, h1'⟩ := List.getElem?_eq_some_iff.mp h1
    obtain ⟨hj, h2'⟩ := List.getElem?_eq_some_iff.mp hpos
    have := (List.getElem_inj (h₀ := hi) (h₁ := hj) hnodup).mp (h1'.trans h2'.symm)
    omega
  · intro hm
    have := nodeList_full _ hm
    rw [htake] at this
    rw [this] at hpos
    exact hpos

/-- C66 is false with a gap: another node is found, or none; and `node0` is the last node. -/
theorem C66_false_gap : getNode [none, some "b", some "c"] 2 = some "c" ∧ getNode [some "a", none, some "c"] 3 = none ∧
    getNode [some "a", some "b"] 0 = some "b" := by decide

example : (nodeList [some "a", some "b", none, some "d"]).Nodup ∧ getNode [some "a", some "b", none, some "d"] 2 = some "b" := by
  decide

end Verif.App
