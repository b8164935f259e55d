import Verif.App.Proxy
import Mathlib.Data.Nat.Digits.Defs
import Mathlib.Data.List.TakeDrop

/-! C102: the proxy that is configured is the one that is used. -/
namespace Verif.App

/-- Specification: `v` is an address of host `h` and port `n`, with or without a protocol before it.  The decimal digits of the port are
read with the last one the units. -/
def Written (v : List Char) (h : List Char) (n : Nat) : Prop :=
  ∃ proto ds e, v = proto ++ h ++ ':' :: ds ++ e ∧ (proto = [] ∨ ∃ q, q ≠ [] ∧ '\n' ∉ q ∧ proto = q ++ [':', '/', '/']) ∧
    h ≠ [] ∧ ':' ∉ h ∧ ds ≠ [] ∧ (∀ c ∈ ds, '0' ≤ c ∧ c ≤ '9') ∧ n = Nat.ofDigits 10 (ds.reverse.map (fun c => c.toNat - '0'.toNat)) ∧
    (e = [] ∨ e = ['\n'])

theorem portOf_eq (ds : List Char) : portOf ds = Nat.ofDigits 10 (ds.reverse.map (fun c => c.toNat - '0'.toNat)) := by
  unfold portOf
  rw [Nat.ofDigits_eq_foldr, List.foldr_map, List.foldr_reverse]
  congr 1
  funext n c
  simp [Nat.add_comm]

theorem isDigit_iff (c : Char) : c.isDigit = true ↔ '0' ≤ c ∧ c ≤ '9' := by
  simp [Char.isDigit, Char.le_def]

theorem span_eq {α : Type} (p : α → Bool) (l : List α) : l.span p = (l.takeWhile p, l.dropWhile p) := List.span_eq_takeWhile_dropWhile (p := p) l

theorem mem_takeWhile {α : Type} {p : α → Bool} {x : α} : ∀ {l : List α}, x ∈ l.takeWhile p → p x = true
  | a :: l, h => by
    rw [List.takeWhile_cons] at h
    split at h
    · rcases List.mem_cons.1 h with rfl | h
      · assumption
      · exact mem_takeWhile h
    · cases h

/-- The text from the host on. -/
def Tail (s : List Char) (p : Proxy) : Prop :=
  ∃ ds e, s = p.host ++ ':' :: ds ++ e ∧ p.host ≠ [] ∧ ':' ∉ p.host ∧ ds ≠ [] ∧ (∀ c ∈ ds, c.isDigit = true) ∧ p.port = portOf ds ∧ (e = [] ∨ e = ['\n'])

theorem takeWhile_append_stop {α : Type} (p : α → Bool) (l r : List α) (hl : ∀ x ∈ l, p x = true) (hr : ∀ x, r.head? = some x → p x = false) :
    (l ++ r).takeWhile p = l ∧ (l ++ r).dropWhile p = r := by
  induction l with
  | nil =>
    cases r with
    | nil => simp
    | cons x r => simp [hr x rfl]
  | cons a l ih =>
    have ha := hl a List.mem_cons_self
    obtain ⟨h1, h2⟩ := ih (fun x hx => hl x (List.mem_cons_of_mem _ hx))
    simp [ha, h1, h2]

theorem hostPort_iff (s : List Char) (p : Proxy) : hostPort s = some p ↔ Tail s p := by
  constructor
  · intro h
    unfold hostPort at h
    rw [span_eq] at h
    split at h
    · rename_i hh r heq
      rw [span_eq] at h
      simp only at h
      split at h
      · rename_i hc
        injection h with h
        subst h
        injection heq with h1 h2
        refine ⟨r.takeWhile (fun c => c.isDigit), r.dropWhile (fun c => c.isDigit), ?_, hc.1, ?_, hc.2.1, ?_, rfl, hc.2.2⟩
        · have := List.takeWhile_append_dropWhile (p := fun c => c != ':') (l := s)
          rw [h1, h2] at this
          rw [← this]
          simp
        · intro hm
          simp only at hm
          rw [← h1] at hm
          have := mem_takeWhile hm
          simp at this
        · intro c hc
          exact mem_takeWhile hc
      · cases h
    · cases h
  · rintro ⟨ds, e, hs, h1, h2, h3, h4, h5, h6⟩
    have ha : s = p.host ++ (':' :: (ds ++ e)) := by rw [hs]; simp
    have hsp := takeWhile_append_stop (fun c => c != ':') p.host (':' :: (ds ++ e)) (by
      intro x hx
      simp only [bne_iff_ne, ne_eq]
      rintro rfl
      exact h2 hx) (by simp)
    have hds := takeWhile_append_stop (fun c => c.isDigit) ds e h4 (by
      intro x hx
      rcases h6 with rfl | rfl
      · cases hx
      · simp at hx; subst hx; decide)
    unfold hostPort
    rw [span_eq, ha, hsp.1, hsp.2]
    simp only [span_eq, hds.1, hds.2]
    rw [if_pos ⟨h1, h3, h6⟩]
    cases p
    simp only at h5
    rw [h5]

/-- A protocol is found if and only if there is one after which an address can be read. -/
theorem afterProtocol_some (p : Proxy) : ∀ (s : List Char) (b : Bool), afterProtocol b s = some p →
    ∃ q t, (b = true ∨ q ≠ []) ∧ '\n' ∉ q ∧ s = q ++ ':' :: '/' :: '/' :: t ∧ hostPort t = some p
  | [], b, h => by simp [afterProtocol] at h
  | c :: r, b, h => by
    unfold afterProtocol at h
    simp only at h
    split at h
    · rename_i x heq
      injection h with h
      subst h
      split at heq
      · rename_i hb
        split at heq
        · rename_i t hcr
          exact ⟨[], t, .inl hb, by simp, by simpa using hcr, heq⟩
        · cases heq
      · cases heq
    · split at h
      · cases h
      · rename_i hn
        obtain ⟨q, t, _, hq, hs, ht⟩ := afterProtocol_some p r true h
        exact ⟨c :: q, t, .inr (by simp), by simp [hq, Ne.symm hn], by simp [hs], ht⟩

theorem afterProtocol_none : ∀ (s : List Char) (b : Bool), afterProtocol b s = none →
    ∀ q t, (b = true ∨ q ≠ []) → '\n' ∉ q → s = q ++ ':' :: '/' :: '/' :: t → hostPort t = none
  | [], _, _, q, t, _, _, hs => by cases q <;> simp at hs
  | c :: r, b, h, q, t, hb, hq, hs => by
    unfold afterProtocol at h
    simp only at h
    split at h
    · cases h
    · rename_i heq
      cases q with
      | nil =>
        have hb := hb.resolve_right (by simp)
        simp only [List.nil_append, List.cons.injEq] at hs
        rw [if_pos hb, hs.1, hs.2] at heq
        exact heq
      | cons a q =>
        simp only [List.cons_append, List.cons.injEq] at hs
        rw [if_neg (by rw [hs.1]; intro h; exact hq (by simp [h]))] at h
        exact afterProtocol_none r true h q t (.inl rfl) (fun h => hq (by simp [h])) hs.2

/-- An address without a colon in its host has only one reading. -/
theorem tail_unique {s : List Char} {p p' : Proxy} (h : Tail s p) (h' : Tail s p') : p = p' := by
  rw [← hostPort_iff] at h h'
  rw [h] at h'
  exact Option.some.inj h'

/-- The last colon of an address is the one before its port. -/
theorem tail_colon {s : List Char} {p : Proxy} (h : Tail s p) {a b : List Char} (hab : s = a ++ ':' :: b) : a = p.host := by
  obtain ⟨ds, e, hs, _, h2, _, h4, _, h6⟩ := h
  rw [hs] at hab
  have : p.host ++ (':' :: (ds ++ e)) = a ++ ':' :: b := by simpa using hab
  rw [List.append_eq_append_iff] at this
  rcases this with ⟨c, hc, hc'⟩ | ⟨c, hc, hc'⟩
  · cases c with
    | nil => simpa using hc
    | cons x c =>
      exfalso
      simp only [List.cons_append, List.cons.injEq] at hc'
      have : ':' ∈ ds ++ e := by rw [hc'.2]; simp
      rcases List.mem_append.1 this with hm | hm
      · exact absurd (h4 _ hm) (by decide)
      · rcases h6 with rfl | rfl <;> simp at hm
  · cases c with
    | nil => simpa using hc.symm
    | cons x c =>
      exfalso
      simp only [List.cons_append, List.cons.injEq] at hc'
      apply h2
      rw [hc, ← hc'.1]
      simp

theorem written_iff (v : List Char) (p : Proxy) : Written v p.host p.port ↔
    Tail v p ∨ ∃ q t, q ≠ [] ∧ '\n' ∉ q ∧ v = q ++ ':' :: '/' :: '/' :: t ∧ Tail t p := by
  simp only [Written, Tail, isDigit_iff, portOf_eq]
  constructor
  · rintro ⟨proto, ds, e, hv, rfl | ⟨q, hq, hn, rfl⟩, hr⟩
    · exact .inl ⟨ds, e, by simpa using hv, hr⟩
    · exact .inr ⟨q, p.host ++ ':' :: ds ++ e, hq, hn, by rw [hv]; simp, ds, e, rfl, hr⟩
  · rintro (⟨ds, e, hv, hr⟩ | ⟨q, t, hq, hn, hv, ds, e, ht, hr⟩)
    · exact ⟨[], ds, e, by simpa using hv, .inl rfl, hr⟩
    · exact ⟨q ++ [':', '/', '/'], ds, e, by rw [hv, ht]; simp, .inr ⟨q, hq, hn, rfl⟩, hr⟩

/-- Two ways to find the protocol give the same address. -/
theorem protocol_unique {q q' t t' : List Char} {p p' : Proxy} (he : q ++ ':' :: '/' :: '/' :: t = q' ++ ':' :: '/' :: '/' :: t')
    (h : Tail t p) (h' : Tail t' p') : p = p' := by
  have slash : ∀ {a b : List Char} {x : Proxy} {u : List Char}, Tail u x → u ≠ a ++ ':' :: '/' :: b := by
    intro a b x u hx hu
    have ha := tail_colon hx hu
    obtain ⟨ds, e, hs, _, _, h3, h4, _⟩ := hx
    rw [hu, ha] at hs
    simp only [List.append_assoc, List.append_cancel_left_eq, List.cons_append, List.cons.injEq, true_and] at hs
    cases ds with
    | nil => exact h3 rfl
    | cons d ds =>
      simp only [List.cons_append, List.cons.injEq] at hs
      exact absurd (h4 d List.mem_cons_self) (by rw [← hs.1]; decide)
  rw [List.append_eq_append_iff] at he
  rcases he with ⟨c, hc, hc'⟩ | ⟨c, hc, hc'⟩
  · match c, hc' with
    | [], hc' => simp at hc'; subst hc'; exact tail_unique h h'
    | [_], hc' => simp at hc'
    | [_, _], hc' => simp at hc'
    | _ :: _ :: _ :: c, hc' =>
      simp only [List.cons_append, List.cons.injEq] at hc'
      exact absurd hc'.2.2.2 (slash h)
  · match c, hc' with
    | [], hc' => simp at hc'; subst hc'; exact tail_unique h h'
    | [_], hc' => simp at hc'
    | [_, _], hc' => simp at hc'
    | _ :: _ :: _ :: c, hc' =>
      simp only [List.cons_append, List.cons.injEq] at hc'
      exact absurd hc'.2.2.2 (slash h')

theorem parseProxy_some (v : List Char) (p : Proxy) : parseProxy v = .ok (some p) ↔ Written v p.host p.port := by
  rw [written_iff]
  unfold parseProxy
  constructor
  · intro h
    split at h
    · rename_i x hx
      injection h with h
      injection h with h
      subst h
      obtain ⟨q, t, hb, hq, hv, ht⟩ := afterProtocol_some x v false hx
      exact .inr ⟨q, t, hb.resolve_left (by simp), hq, hv, (hostPort_iff t x).1 ht⟩
    · split at h
      · rename_i x hx
        injection h with h
        injection h with h
        subst h
        exact .inl ((hostPort_iff v x).1 hx)
      · split at h <;> cases h
  · intro h
    cases hx : afterProtocol false v with
    | some x =>
      obtain ⟨q, t, hb, hq, hv, ht⟩ := afterProtocol_some x v false hx
      rw [hostPort_iff] at ht
      simp only
      rcases h with h | ⟨q', t', _, _, hv', ht'⟩
      · exfalso
        obtain ⟨ds, e, hs, _, _, h3, h4, _⟩ := id h
        have ha := tail_colon h hv
        rw [hv, ha] at hs
        simp only [List.append_assoc, List.append_cancel_left_eq, List.cons_append, List.cons.injEq, true_and] at hs
        cases ds with
        | nil => exact h3 rfl
        | cons d ds =>
          simp only [List.cons_append, List.cons.injEq] at hs
          exact absurd (h4 d List.mem_cons_self) (by rw [← hs.1]; decide)
      · rw [protocol_unique (hv.symm.trans hv') ht ht']
    | none =>
      simp only
      rcases h with h | ⟨q', t', hq', hn', hv', ht'⟩
      · rw [(hostPort_iff v p).2 h]
      · have := afterProtocol_none v false hx q' t' (.inr hq') hn' hv'
        rw [(hostPort_iff t' p).2 ht'] at this
        cases this

/-- **C102**  Reading a proxy setting gives host and port exactly if the text is `host:port`, with or without a protocol and `://` before it; in
particular no text has two readings.  An empty text means no proxy, and everything else is refused. -/
theorem C102_proxy_read (v : List Char) :
    (∀ h n, parseProxy v = .ok (some ⟨h, n⟩) ↔ Written v h n) ∧
    (parseProxy v = .ok none ↔ v = []) ∧
    (parseProxy v = .error () ↔ v ≠ [] ∧ ¬∃ h n, Written v h n) := by
  have h1 : ∀ h n, parseProxy v = .ok (some ⟨h, n⟩) ↔ Written v h n := fun h n => parseProxy_some v ⟨h, n⟩
  have h2 : parseProxy v = .ok none ↔ v = [] := by
    constructor
    · intro h
      unfold parseProxy at h
      split at h
      · cases h
      · split at h
        · cases h
        · split at h
          · assumption
          · cases h
    · rintro rfl
      rfl
  refine ⟨h1, h2, ?_⟩
  rw [ne_eq, ← h2]
  cases hp : parseProxy v with
  | error u => simp [← h1, hp]
  | ok o =>
    cases o with
    | none => simp
    | some p =>
      simp only [reduceCtorEq, Except.ok.injEq, not_false_eq_true, true_and, false_iff, not_not]
      exact ⟨p.host, p.port, (h1 _ _).1 hp⟩

/-- Two spellings, one with a user's name in it that is refused, and one with an address in brackets. -/
example : parseProxy "http://proxy.example:8080".toList = .ok (some ⟨"proxy.example".toList, 8080⟩) ∧
    parseProxy "10.0.0.1:3128".toList = .ok (some ⟨"10.0.0.1".toList, 3128⟩) ∧
    parseProxy "http://me:pw@proxy:80".toList = .error () ∧ parseProxy "[::1]:80".toList = .error () := by
  refine ⟨by rfl, by rfl, by rfl, by rfl⟩

/-- The text of the proxy of a component. -/
def Linked.text : Linked → Option (List Char)
  | .ws _ v => v
  | .legacyIn _ v => v

theorem linksOf_ok (c : Linked) : (∃ l, linksOf c = .ok l) ↔ ∀ v, c.text = some v → v = [] ∨ ∃ h n, Written v h n := by
  have key : ∀ o : Option (List Char), (∃ p, proxyOf o = .ok p) ↔ ∀ v, o = some v → v = [] ∨ ∃ h n, Written v h n := by
    intro o
    cases o with
    | none => simp [proxyOf]
    | some v =>
      have h3 := (C102_proxy_read v).2.2
      simp only [proxyOf, Option.some.injEq, forall_eq']
      cases hp : parseProxy v with
      | ok p =>
        rw [hp] at h3
        simp only [Except.ok.injEq, exists_eq', true_iff]
        simp only [reduceCtorEq, false_iff] at h3
        by_contra hc
        exact h3 ⟨fun h => hc (.inl h), fun h => hc (.inr h)⟩
      | error u =>
        rw [hp] at h3
        obtain ⟨a, b⟩ := h3.1 rfl
        simp [a]
        simpa using b
  cases c <;>
  · simp only [linksOf, Linked.text, ← key]
    constructor
    · rintro ⟨l, h⟩
      cases hp : proxyOf _ with
      | ok p => exact ⟨p, rfl⟩
      | error e => rw [hp] at h; cases h
    · rintro ⟨p, h⟩
      rw [h]
      exact ⟨_, rfl⟩

/-- **C102**  An application can be configured if and only if every proxy in it is empty or an address. -/
theorem C102_refused_iff (cs : List Linked) :
    (∃ l, links cs = .ok l) ↔ ∀ c ∈ cs, ∀ v, c.text = some v → v = [] ∨ ∃ h n, Written v h n := by
  induction cs with
  | nil => simp [links]
  | cons c cs ih =>
    rw [List.forall_mem_cons, ← ih, ← linksOf_ok]
    simp only [links, bind, Except.bind, pure, Except.pure]
    constructor
    · rintro ⟨l, h⟩
      cases h1 : linksOf c with
      | error e => rw [h1] at h; cases h
      | ok l1 =>
        rw [h1] at h
        cases h2 : links cs with
        | error e => rw [h2] at h; cases h
        | ok l2 => exact ⟨⟨l1, rfl⟩, ⟨l2, rfl⟩⟩
    · rintro ⟨⟨l1, h1⟩, ⟨l2, h2⟩⟩
      rw [h1, h2]
      exact ⟨_, rfl⟩

/-- **C102**  Once configured, the connections made are those to the configured addresses, and each connection of a websocket input or output goes
through the proxy of its own component, and through none if it has none.  Missing: legacy inputs never use theirs, see `C102_false_legacy`. -/
theorem C102_used_partial (cs : List Linked) (l : List (String × Option Proxy)) (hl : links cs = .ok l)
    (u : String) (h : List Char) (n : Nat) :
    ((u, some ⟨h, n⟩) ∈ l ↔ ∃ connect v, Linked.ws connect (some v) ∈ cs ∧ u ∈ connect ∧ Written v h n) ∧
    ((u, none) ∈ l ↔ (∃ connect v, Linked.ws connect v ∈ cs ∧ u ∈ connect ∧ (v = none ∨ v = some [])) ∨ ∃ v, Linked.legacyIn u v ∈ cs) := by
  induction cs generalizing l with
  | nil =>
    simp only [links] at hl
    injection hl with hl
    subst hl
    simp
  | cons c cs ih =>
    simp only [links, bind, Except.bind, pure, Except.pure] at hl
    cases h1 : linksOf c with
    | error e => rw [h1] at hl; cases hl
    | ok l1 =>
      rw [h1] at hl
      cases h2 : links cs with
      | error e => rw [h2] at hl; cases hl
      | ok l2 =>
        rw [h2] at hl
        simp only [Except.ok.injEq] at hl
        subst hl
        obtain ⟨ih1, ih2⟩ := ih l2 h2
        have hc : ((u, some ⟨h, n⟩) ∈ l1 ↔ ∃ connect v, Linked.ws connect (some v) = c ∧ u ∈ connect ∧ Written v h n) ∧
            ((u, none) ∈ l1 ↔ (∃ connect v, Linked.ws connect v = c ∧ u ∈ connect ∧ (v = none ∨ v = some [])) ∨
              ∃ v, Linked.legacyIn u v = c) := by
          cases c with
          | legacyIn uri v =>
            simp only [linksOf] at h1
            cases hp : proxyOf v with
            | error e => rw [hp] at h1; cases h1
            | ok p =>
              rw [hp] at h1
              injection h1 with h1
              subst h1
              simp [eq_comm]
          | ws connect v =>
            simp only [linksOf] at h1
            cases hp : proxyOf v with
            | error e => rw [hp] at h1; cases h1
            | ok p =>
              rw [hp] at h1
              injection h1 with h1
              subst h1
              cases v with
              | none =>
                simp only [proxyOf, Except.ok.injEq] at hp
                subst hp
                simp
              | some v =>
                simp only [proxyOf] at hp
                have r1 := (C102_proxy_read v).1 h n
                have r2 := (C102_proxy_read v).2.1
                rw [hp] at r1 r2
                simp only [Except.ok.injEq] at r1 r2
                simp [r1, r2]
        simp only [List.mem_append, hc.1, hc.2, ih1, ih2, List.mem_cons]
        constructor
        · constructor
          · rintro (⟨a, v, x, y⟩ | ⟨a, v, x, y⟩)
            · exact ⟨a, v, .inl x, y⟩
            · exact ⟨a, v, .inr x, y⟩
          · rintro ⟨a, v, x | x, y⟩
            · exact .inl ⟨a, v, x, y⟩
            · exact .inr ⟨a, v, x, y⟩
        · constructor
          · rintro ((⟨a, v, x, y⟩ | ⟨v, x⟩) | (⟨a, v, x, y⟩ | ⟨v, x⟩))
            · exact .inl ⟨a, v, .inl x, y⟩
            · exact .inr ⟨v, .inl x⟩
            · exact .inl ⟨a, v, .inr x, y⟩
            · exact .inr ⟨v, .inr x⟩
          · rintro (⟨a, v, x | x, y⟩ | ⟨v, x | x⟩)
            · exact .inl (.inl ⟨a, v, x, y⟩)
            · exact .inr (.inl ⟨a, v, x, y⟩)
            · exact .inl (.inr ⟨v, x⟩)
            · exact .inr (.inr ⟨v, x⟩)

/-- Two outputs with different proxies. -/
example : links [.ws ["ws://a/s/publish", "ws://b/s/publish"] (some "p:1".toList), .ws ["ws://c/s/publish"] none, .ws ["ws://d/s/publish"] (some "x://q:22".toList)]
    = .ok [("ws://a/s/publish", some ⟨['p'], 1⟩), ("ws://b/s/publish", some ⟨['p'], 1⟩), ("ws://c/s/publish", none),
      ("ws://d/s/publish", some ⟨['q'], 22⟩)] := by rfl

/-- The claim that a configured proxy is used is false of legacy inputs: whatever the proxy, it is read, and the connection is made without. -/
theorem C102_false_legacy (uri : String) (v h : List Char) (n : Nat) (hv : Written v h n) :
    links [.legacyIn uri (some v)] = .ok [(uri, none)] := by
  simp only [links, linksOf, proxyOf, ((C102_proxy_read v).1 h n).2 hv]
  rfl

end Verif.App
