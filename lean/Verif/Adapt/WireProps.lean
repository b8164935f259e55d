import Verif.Adapt.TravelProps
import Verif.Ws.NetProps
import Verif.Xml.Props

/-!
# Documents published over websockets, end to end (C82)

From the binding of a document over its text, the server, the connections and the clients to what the nodes at the
other ends are handed.
-/
namespace Verif.Adapt

/-! ### A codec made of the printer and the parser of `Verif.Xml` -/

/-- The value of an attribute of the document element. -/
def attrOf (n : String) : Xml.X → Option String
  | .text _ => none
  | .elem _ as _ => (as.find? (·.1 = n.toList)).map (fun a => String.ofList a.2)

/-- The binding of a tree: the attributes that are read by carriages and adapters, and all of it as it is printed
(documents/ebutt3.py:245-246, 533-534: `toxml`/`toDOM` and `toprettyxml`). -/
def bindOf (x : Xml.X) : Bind where
  sid := (attrOf "ebuttp:sequenceIdentifier" x).getD ""
  num := ((attrOf "ebuttp:sequenceNumber" x).bind String.toNat?).getD 0
  timeBase := (attrOf "ttp:timeBase" x).getD ""
  clockMode := attrOf "ttp:clockMode" x
  rest := String.ofList (Xml.writeDoc x)

/-- A tree is a document if its root is `tt:tt` (bindings/__init__.py: the element `tt`), a message otherwise. -/
def isTt : Xml.X → Bool
  | .elem t _ _ => decide (t = "tt:tt".toList)
  | .text _ => false

/-- The codec: texts are printed and parsed as in `Verif.Xml`; which documents are valid and how they are converted to EBU-TT-D are
parameters. -/
def xmlCodec (mixed : Xml.Text → Bool) (valid : Bind → Option Int → Bool) (toD : Bind → Option String) : Codec where
  write3 b := b.rest
  writeM m := m.rest
  read s := (Xml.readDoc s.toList).map (fun x =>
    let x := Xml.bindRead mixed x
    if isTt x = true then .inl (bindOf x) else .inr ⟨(attrOf "sequenceIdentifier" x).getD "", String.ofList (Xml.writeDoc x)⟩)
  valid := valid
  writeD s := s
  readD s := some s
  toD := toD

theorem writeDoc_ne (x : Xml.X) : Xml.writeDoc x ≠ [] := by
  have h3 : "<?xml version=\"1.0\" ?>\n".toList ≠ [] := by decide
  unfold Xml.writeDoc
  intro h
  exact h3 (List.append_eq_nil_iff.1 h).1

theorem ofList_empty {l : List Char} (h : String.ofList l = "") : l = [] := by
  have h1 := congrArg String.toList h
  rw [String.toList_ofList] at h1
  rw [h1]
  rfl

/-- A document whose text elements have text only passes unchanged. -/
theorem plain_survives (mixed : Xml.Text → Bool) (valid : Bind → Option Int → Bool) (toD : Bind → Option String) (as : List (Xml.Text × Xml.Text))
    (ks : List Xml.X) (hg : Xml.good (.elem "tt:tt".toList as ks) = true) (hp : Xml.plain mixed (.elem "tt:tt".toList as ks) = true)
    (a : Option Int) (hv : valid (bindOf (.elem "tt:tt".toList as ks)) a = true) :
    Survives (xmlCodec mixed valid toD) (bindOf (.elem "tt:tt".toList as ks)) a := by
  have h1 := Xml.C68_kept_exactly_partial mixed _ as ks hg hp 1
  simp only [Xml.trips, Xml.trip] at h1
  obtain ⟨y, hy, hxy⟩ := Option.bind_eq_some_iff.1 h1
  obtain ⟨z, hz, hzy⟩ := Option.map_eq_some_iff.1 hy
  injection hxy with hxy
  rw [hxy] at hzy
  refine ⟨?_, ?_, hv⟩
  · simp only [xmlCodec, bindOf, String.toList_ofList]
    rw [hz, Option.map_some, hzy]
    rfl
  · intro he
    exact writeDoc_ne (.elem "tt:tt".toList as ks) (ofList_empty he)

/-! ### C82 -/

/-- Everything published at the server is the text of a document that survives, under its sequence identifier. -/
def Publishes (X : Codec) (evs : List Ws.NEv) : Prop :=
  ∀ q s, .emit q s ∈ evs ∨ .emitLater q s ∈ evs → ∃ b, Survives X b none ∧ b.sid = q ∧ X.write3 b = s

/-- The same for what is published at clients. -/
def ClientsPublish (X : Codec) (evs : List Ws.NEv) : Prop :=
  ∀ p q s, .clientEmit p q s ∈ evs ∨ .clientEmitLater p q s ∈ evs → ∃ b, Survives X b none ∧ b.sid = q ∧ X.write3 b = s

/-- What a node makes of the data a websocket consumer is handed: the outcome of the adapter in between. -/
def taken (X : Codec) (l : List (String × String)) : List (Except Err Data) :=
  l.map (fun h => (convertAll X [.xmlTo3] (wsIn h.1 h.2).1 (wsIn h.1 h.2).2).map Prod.fst)

theorem taken_doc (X : Codec) (b : Bind) (h : Survives X b none) (q : String) (hq : b.sid = q) :
    (convertAll X [.xmlTo3] (wsIn q (X.write3 b)).1 (wsIn q (X.write3 b)).2).map Prod.fst = .ok (.doc ⟨b, none⟩) := by
  have ha : (Kw.empty.set .sid (.str q)).avail = none := by simp [Kw.avail, Kw.set, Kw.empty]
  simp only [wsIn, convertAll, Adapter.convert]
  rw [h.reads]
  simp only
  rw [ha, if_pos h.valid, if_pos (by simp [sidMatches, Kw.set, hq])]
  rfl

theorem taken_docs (X : Codec) (q : String) (bs : List Bind) (h : ∀ b ∈ bs, Survives X b none ∧ b.sid = q) :
    taken X (bs.map (fun b => (q, X.write3 b))) = bs.map (fun b => .ok (.doc ⟨b, none⟩)) := by
  unfold taken
  rw [List.map_map]
  refine List.map_congr_left (fun b hb => ?_)
  exact taken_doc X b (h b hb).1 q (h b hb).2

/-- Texts that are all of documents. -/
theorem all_docs {X : Codec} {P : Bind → Prop} : ∀ (l : List String), (∀ s ∈ l, ∃ b, P b ∧ X.write3 b = s) → ∃ bs : List Bind,
    bs.map X.write3 = l ∧ ∀ b ∈ bs, P b
  | [], _ => ⟨[], rfl, by simp⟩
  | s :: l, h => by
    obtain ⟨b, hb, hs⟩ := h s List.mem_cons_self
    obtain ⟨bs, h1, h2⟩ := all_docs l (fun s' hs' => h s' (List.mem_cons_of_mem _ hs'))
    refine ⟨b :: bs, by rw [List.map_cons, h1, hs], ?_⟩
    intro b' hb'
    rcases List.mem_cons.1 hb' with hb' | hb'
    · rw [hb']; exact hb
    · exact h2 b' hb'

theorem mem_serverSide {setup : Nat → Ws.Setup} {evs : List Ws.NEv} {ev : Ws.Ev} (h : ev ∈ Ws.serverSide setup evs) :
    (∀ q s, publishes ev = some (q, s) → .emit q s ∈ evs ∨ .emitLater q s ∈ evs) ∧
    (∀ c p, ev = .opened c p → p = (setup c).path) := by
  obtain ⟨e, he, hev⟩ := List.mem_filterMap.1 h
  cases e with
  | connect c =>
    injection hev with hev
    subst hev
    exact ⟨fun q s h => (by cases h), fun c' p h => (by injection h with h1 h2; rw [← h2, h1])⟩
  | lost c => injection hev with hev; subst hev; exact ⟨fun q s h => (by cases h), fun c' p h => (by cases h)⟩
  | emit q s =>
    injection hev with hev
    subst hev
    exact ⟨fun q' s' h => (by simp only [publishes, Option.some.injEq, Prod.mk.injEq] at h; rw [← h.1, ← h.2]; exact .inl he),
      fun c' p h => (by cases h)⟩
  | emitLater q s =>
    injection hev with hev
    subst hev
    exact ⟨fun q' s' h => (by simp only [publishes, Option.some.injEq, Prod.mk.injEq] at h; rw [← h.1, ← h.2]; exact .inr he),
      fun c' p h => (by cases h)⟩
  | fire i => injection hev with hev; subst hev; exact ⟨fun q s h => (by cases h), fun c' p h => (by cases h)⟩
  | _ => cases hev

/-- What a subscriber must get are documents of its sequence. -/
theorem inbox_docs (X : Codec) (prod cons : Bool) (setup : Nat → Ws.Setup) (evs : List Ws.NEv) (hpub : Publishes X evs) (c : Nat) :
    ∃ ds : List Bind, ds.map X.write3 = Ws.inbox prod cons c .absent [] (Ws.serverSide setup evs) ∧
      ∀ d ∈ ds, Survives X d none ∧ d.sid = Ws.sequenceOf (setup c).path := by
  refine all_docs _ (fun s hs => ?_)
  obtain ⟨q', h3, h4⟩ := mem_inbox prod cons c s _ .absent [] hs
  have hq : q' = Ws.sequenceOf (setup c).path := by
    rcases h3 with h3 | h3
    · cases h3
    · have := (mem_serverSide h3).2 c _ rfl
      rw [← this]; rfl
  rcases h4 with h4 | ⟨e, he, h4⟩
  · cases h4
  · obtain ⟨b, h1, h2, h3⟩ := hpub q' s ((mem_serverSide he).1 q' s h4)
    exact ⟨b, ⟨h1, h2.trans hq⟩, h3⟩

/-- **C82, subscribers.** Let everything published at the server be documents. Whatever happens in whatever order, there are documents `ds`, namely
those published for the sequence of a client's URL while it was subscribed, in order, such that the node behind that client is handed the
first of them, as they were, in order, without gaps and each once, and never anything else or an error. -/
theorem C82_subscribers (X : Codec) (prod cons : Bool) (setup : Nat → Ws.Setup) (evs : List Ws.NEv) (h : (Ws.connects evs).Nodup)
    (hpub : Publishes X evs) (c : Nat) :
    ∃ ds : List Bind, ds.map X.write3 = Ws.inbox prod cons c .absent [] (Ws.serverSide setup evs) ∧
      taken X ((Ws.netRun prod cons setup evs).handed c) <+: ds.map (fun d => .ok (.doc ⟨d, none⟩)) := by
  obtain ⟨ds, h1, h2⟩ := inbox_docs X prod cons setup evs hpub c
  refine ⟨ds, h1, ?_⟩
  have hp := Ws.C81_subscribers prod cons setup evs h c
  rw [← h1, List.map_map] at hp
  have := hp.map (fun h : String × String => (convertAll X [.xmlTo3] (wsIn h.1 h.2).1 (wsIn h.1 h.2).2).map Prod.fst)
  rw [← taken_docs X _ ds h2]
  exact this

/-- **C82, subscribers, all of it.** The node has been handed all of them once what is on its way has arrived, if the client neither loses the
connection nor refuses anything (and by `C82_subscribers` there is nothing to refuse). -/
theorem C82_subscribers_all (X : Codec) (prod cons : Bool) (setup : Nat → Ws.Setup) (pre post : List Ws.NEv) (c : Nat) (q : String)
    (hpath : (setup c).path = [q, "subscribe"]) (hcons : (setup c).consumer = true)
    (h : (Ws.connects (pre ++ .accepted c :: post)).Nodup) (hconn : .connect c ∈ pre)
    (hev : ∀ e ∈ pre ++ .accepted c :: post, e ≠ .clientLost c ∧ e ≠ .deliver c true)
    (hpub : Publishes X (pre ++ .accepted c :: post)) :
    ∃ ds : List Bind, ds.map X.write3 = Ws.inbox prod cons c .absent [] (Ws.serverSide setup (pre ++ .accepted c :: post)) ∧
      ∀ k, ds.length ≤ k →
        taken X ((Ws.netRun prod cons setup ((pre ++ .accepted c :: post) ++ List.replicate k (.deliver c false))).handed c)
          = ds.map (fun d => .ok (.doc ⟨d, none⟩)) := by
  obtain ⟨ds, h1, h2⟩ := inbox_docs X prod cons setup _ hpub c
  refine ⟨ds, h1, fun k hk => ?_⟩
  rw [Ws.C81_all_delivered prod cons setup pre post c q hpath hcons h hconn hev k (by rw [← h1, List.length_map]; exact hk), ← h1, List.map_map]
  exact taken_docs X q ds (fun d hd => ⟨(h2 d hd).1, by rw [(h2 d hd).2, hpath]; rfl⟩)

theorem mem_uttered (u : Ws.Setup) (c : Nat) (s : String) : ∀ (evs : List Ws.NEv) (e : Ws.End) (w : List (Nat × String × String)),
    (∀ q, e = .publishing q → q = Ws.sequenceOf u.path) → s ∈ Ws.uttered u c e w evs →
      ∃ p, (p, Ws.sequenceOf u.path, s) ∈ w ∨ .clientEmit p (Ws.sequenceOf u.path) s ∈ evs ∨ .clientEmitLater p (Ws.sequenceOf u.path) s ∈ evs := by
  intro evs
  induction evs with
  | nil => intro e w _ h; cases h
  | cons ev evs ih =>
    intro e w he h
    unfold Ws.uttered at h
    rcases List.mem_append.1 h with h | h
    · -- now
      cases hm : Ws.emitted w ev with
      | none => rw [hm] at h; cases e <;> simp [Ws.toSay] at h
      | some t =>
        obtain ⟨p, q, d⟩ := t
        rw [hm] at h
        cases e with
        | publishing q' =>
          simp only [Ws.toSay] at h
          split at h
          · rename_i hpq
            have hd := List.mem_singleton.1 h
            subst hd
            have hq : q = Ws.sequenceOf u.path := by rw [hpq.2]; exact he q' rfl
            rw [hq] at hm
            refine ⟨p, ?_⟩
            cases ev with
            | clientEmit p' q'' d' =>
              simp only [Ws.emitted, Option.some.injEq, Prod.mk.injEq] at hm
              rw [hm.1, hm.2.1, hm.2.2]
              exact .inr (.inl List.mem_cons_self)
            | clientFire i => exact .inl (List.mem_of_getElem? hm)
            | _ => cases hm
          · cases h
        | _ => simp [Ws.toSay] at h
    · have hnext : ∀ q, e.next u c ev = .publishing q → q = Ws.sequenceOf u.path := by
        intro q hq
        cases ev with
        | connect c' =>
          simp only [Ws.End.next] at hq
          split at hq
          · cases hq
          · exact he q hq
        | accepted c' =>
          simp only [Ws.End.next] at hq
          split at hq
          · split at hq
            · injection hq with hq; exact hq.symm
            · cases hq
          · exact he q hq
        | clientLost c' =>
          simp only [Ws.End.next] at hq
          split at hq
          · cases hq
          · exact he q hq
        | _ => exact he q hq
      obtain ⟨p, h1⟩ := ih _ _ hnext h
      refine ⟨p, ?_⟩
      rcases h1 with h1 | h1 | h1
      · cases ev with
        | clientEmitLater p' q' d' =>
          simp only [Ws.delayedAfter, List.mem_append, List.mem_singleton, Prod.mk.injEq] at h1
          rcases h1 with h1 | h1
          · exact .inl h1
          · rw [h1.1, h1.2.1, h1.2.2]; exact .inr (.inr List.mem_cons_self)
        | clientFire i => exact .inl (List.mem_of_mem_eraseIdx h1)
        | _ => exact .inl h1
      · exact .inr (.inl (List.mem_cons_of_mem _ h1))
      · exact .inr (.inr (List.mem_cons_of_mem _ h1))

theorem all_arrivals {X : Codec} {P : Nat → Bind → Prop} : ∀ (l : List (Nat × String)), (∀ a ∈ l, ∃ b, P a.1 b ∧ X.write3 b = a.2) →
    ∃ bs : List (Nat × Bind), bs.map (fun a => (a.1, X.write3 a.2)) = l ∧ ∀ a ∈ bs, P a.1 a.2
  | [], _ => ⟨[], rfl, by simp⟩
  | s :: l, h => by
    obtain ⟨b, hb, hs⟩ := h s List.mem_cons_self
    obtain ⟨bs, h1, h2⟩ := all_arrivals l (fun s' hs' => h s' (List.mem_cons_of_mem _ hs'))
    refine ⟨(s.1, b) :: bs, by rw [List.map_cons, h1, hs], ?_⟩
    intro a ha
    rcases List.mem_cons.1 ha with ha | ha
    · rw [ha]; exact hb
    · exact h2 a ha

/-- **C82, publishing clients.** Let everything published at clients be documents. Then the node behind the server is handed documents only, as they were, and
those from each client are the first of what its producer published for the sequence of its URL while it was connected, in order. -/
theorem C82_publishers (X : Codec) (prod cons : Bool) (setup : Nat → Ws.Setup) (evs : List Ws.NEv) (h : (Ws.connects evs).Nodup)
    (hpub : ClientsPublish X evs) :
    ∃ arrivals : List (Nat × Bind),
      taken X (Ws.netRun prod cons setup evs).server.consumed = arrivals.map (fun a => .ok (.doc ⟨a.2, none⟩)) ∧
      ∀ c, (Ws.ofConn arrivals c).map X.write3 <+: Ws.uttered (setup c) c .closed [] evs := by
  obtain ⟨arr, h1, h2⟩ := Ws.C81_publishers prod cons setup evs h
  have hall : ∀ a ∈ arr, ∃ b, (Survives X b none ∧ b.sid = Ws.sequenceOf (setup a.1).path) ∧ X.write3 b = a.2 := by
    intro a ha
    have hm : a.2 ∈ Ws.ofConn arr a.1 := List.mem_map.2 ⟨a, List.mem_filter.2 ⟨ha, by simp⟩, rfl⟩
    obtain ⟨p, h3⟩ := mem_uttered (setup a.1) a.1 a.2 evs .closed [] (fun q hq => (by cases hq)) ((h2 a.1).subset hm)
    rcases h3 with h3 | h3
    · cases h3
    · obtain ⟨b, k1, k2, k3⟩ := hpub p _ _ h3
      exact ⟨b, ⟨k1, k2⟩, k3⟩
  obtain ⟨bs, h3, h4⟩ := all_arrivals (P := fun c b => Survives X b none ∧ b.sid = Ws.sequenceOf (setup c).path) arr hall
  refine ⟨bs, ?_, fun c => ?_⟩
  · rw [h1, ← h3, List.map_map]
    unfold taken
    rw [List.map_map]
    refine List.map_congr_left (fun a ha => ?_)
    exact taken_doc X a.2 (h4 a ha).1 _ (h4 a ha).2
  · have := h2 c
    rw [← h3] at this
    have he : Ws.ofConn (bs.map (fun a => (a.1, X.write3 a.2))) c = (Ws.ofConn bs c).map X.write3 := by
      simp only [Ws.ofConn, List.filter_map, List.map_map]
      rfl
    rw [he] at this
    exact this

/-! ### The hypotheses are met, by documents that are printed and parsed -/

def exMixed (t : Xml.Text) : Bool := t = "tt:p".toList || t = "tt:span".toList

def exTree (n t : String) : Xml.X :=
  .elem "tt:tt".toList [("ebuttp:sequenceIdentifier".toList, "s".toList), ("ebuttp:sequenceNumber".toList, n.toList), ("ttp:timeBase".toList, "media".toList)]
    [.elem "tt:body".toList [] [.elem "tt:div".toList [] [.elem "tt:p".toList [("xml:id".toList, "p1".toList)] [.text t.toList]]]]

def exX : Codec := xmlCodec exMixed (fun _ _ => true) (fun _ => none)

theorem exTree_survives (n t : String) (hn : Xml.valOk n.toList = true) (ht : t.toList.all (fun c => c != '\r') = true) (hne : t.toList.isEmpty = false) :
    Survives exX (bindOf (exTree n t)) none := by
  refine plain_survives exMixed _ _ _ _ ?_ ?_ none rfl
  · have hk : ∀ v : Xml.Text, Xml.valOk v = true → Xml.attrOk ("ebuttp:sequenceNumber".toList, v) = true := by
      intro v hv
      have : Xml.nameOk "ebuttp:sequenceNumber".toList = true := by decide +kernel
      simp only [Xml.attrOk, this, hv, Bool.and_self]
    have h1 : Xml.nameOk "tt:tt".toList = true := by decide +kernel
    have h2 : Xml.attrOk ("ebuttp:sequenceIdentifier".toList, "s".toList) = true := by decide +kernel
    have h3 : Xml.attrOk ("ttp:timeBase".toList, "media".toList) = true := by decide +kernel
    have h4 : Xml.nameOk "tt:body".toList = true := by decide +kernel
    have h5 : Xml.nameOk "tt:div".toList = true := by decide +kernel
    have h6 : Xml.nameOk "tt:p".toList = true := by decide +kernel
    have h7 : Xml.attrOk ("xml:id".toList, "p1".toList) = true := by decide +kernel
    simp only [Xml.good, Xml.goods, List.all_cons, List.all_nil, h1, h2, h3, h4, h5, h6, h7, hk _ hn, ht, Bool.and_self]
  · have m1 : exMixed "tt:tt".toList = false := by decide +kernel
    have m2 : exMixed "tt:body".toList = false := by decide +kernel
    have m3 : exMixed "tt:div".toList = false := by decide +kernel
    have m4 : exMixed "tt:p".toList = true := by decide +kernel
    have hal : ∀ d : Xml.Text, Xml.alone [.text d] = some d := fun _ => rfl
    simp only [Xml.plain, Xml.plains, m1, m2, m3, m4, Xml.X.isElem, hal, hne, if_true, Bool.false_eq_true, if_false, List.all_cons,
      List.all_nil, Option.isSome_some, Bool.or_true, Bool.and_self, Bool.not_false, Bool.and_true]

def exText (n t : String) : String := exX.write3 (bindOf (exTree n t))

/-- Client 1 subscribes to the sequence, client 2 publishes to it. -/
def exWire : List Ws.NEv :=
  [.connect 1, .accepted 1, .connect 2, .accepted 2, .emit "s" (exText "1" "a"), .emitLater "s" (exText "2" "b"), .deliver 1 false,
   .clientEmit 2 "s" (exText "7" "c"), .upload 2 false, .fire 0, .deliver 1 false]

def exWireSetup : Nat → Ws.Setup
  | 2 => ⟨["s", "publish"], some 2, false⟩
  | _ => ⟨["s", "subscribe"], none, true⟩

theorem exTree_sid (n t : String) : (bindOf (exTree n t)).sid = "s" := by
  have h : String.ofList "s".toList = "s" := by decide
  have h2 : attrOf "ebuttp:sequenceIdentifier" (exTree n t) = some (String.ofList "s".toList) := by
    simp only [attrOf, exTree]
    rw [List.find?_cons_of_pos (by simp only [decide_true])]
    rfl
  unfold bindOf
  simp only [h2, h, Option.getD_some]

theorem exWire_publishes : Publishes exX exWire := by
  intro q s h
  simp only [exWire, List.mem_cons, Ws.NEv.emit.injEq, Ws.NEv.emitLater.injEq, reduceCtorEq, List.not_mem_nil, or_false, false_or] at h
  rcases h with h | h <;> rw [h.1, h.2]
  · exact ⟨_, exTree_survives "1" "a" (by decide +kernel) (by decide +kernel) (by decide +kernel), exTree_sid _ _, rfl⟩
  · exact ⟨_, exTree_survives "2" "b" (by decide +kernel) (by decide +kernel) (by decide +kernel), exTree_sid _ _, rfl⟩

theorem exWire_clients : ClientsPublish exX exWire := by
  intro p q s h
  simp only [exWire, List.mem_cons, Ws.NEv.clientEmit.injEq, reduceCtorEq, List.not_mem_nil, or_false, false_or] at h
  rw [h.2.1, h.2.2]
  exact ⟨_, exTree_survives "7" "c" (by decide +kernel) (by decide +kernel) (by decide +kernel), exTree_sid _ _, rfl⟩

/-- The client of the example is handed both documents, and the server's node the one that was published to it. -/
example : (Ws.connects exWire).Nodup ∧
    (Ws.netRun true true exWireSetup exWire).handed 1 = [("s", exText "1" "a"), ("s", exText "2" "b")] ∧
    (Ws.netRun true true exWireSetup exWire).server.consumed = [("s", exText "7" "c")] := by decide +kernel

/-- And its text is what one would expect. -/
example : exText "1" "a" = "<?xml version=\"1.0\" ?>\n<tt:tt ebuttp:sequenceIdentifier=\"s\" ebuttp:sequenceNumber=\"1\" ttp:timeBase=\"media\">\n  <tt:body>\n    <tt:div>\n      <tt:p xml:id=\"p1\">a</tt:p>\n    </tt:div>\n  </tt:body>\n</tt:tt>\n" := by
  decide +kernel

/-- A document with a text beside an element in a `tt:p` does not pass unchanged: `plain` is needed (C68). -/
theorem C82_false_inline : ∃ as ks, Xml.good (.elem "tt:tt".toList as ks) = true ∧
    ((exX.read (exX.write3 (bindOf (.elem "tt:tt".toList as ks)))).map (fun r => decide (r = .inl (bindOf (.elem "tt:tt".toList as ks))))) = some false :=
  ⟨[("ebuttp:sequenceIdentifier".toList, "s".toList)],
    [.elem "tt:body".toList [] [.elem "tt:div".toList [] [.elem "tt:p".toList [] [.text "a".toList, .elem "tt:br".toList [] []]]]],
    by decide +kernel, by decide +kernel⟩

end Verif.Adapt
