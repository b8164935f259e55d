import Verif.Node.HandoverSeq

/-
C91: what a consumer behind a handover node shows.
-/
namespace Verif.Node

open Verif

variable {α : Type}

/-- The documents the node gives out, as the consumer's sequence looks at them. -/
def received (hcfg : HCfg) (h : List (In α)) : List Seq.Doc := (docsOf (output hcfg h)).map (·.toDoc)

/-- The sequence of a consumer that got what the node gave out, in that order. -/
def consumer (cfg : Seq.Cfg) (agid : Option String) (hcfg : HCfg) (h : List (In α)) : Seq.State × List Seq.Outcome :=
  Seq.run (Seq.State.init cfg agid) (received hcfg h)

/-- The passed-on document `d`, the `n`-th one, as the consumer has it. -/
def asReceived (hcfg : HCfg) (n : Nat) (d : NDoc α) : Seq.Doc := { d.toDoc with seqId := hcfg.outId, num := n }

/-- Specification: the consumer's sequence is the one the node gives out, and the delivered documents have its time base and clock mode. -/
structure Matches (cfg : Seq.Cfg) (agid : Option String) (hcfg : HCfg) (h : List (In α)) : Prop where
  id : cfg.seqId = hcfg.outId
  group : agid = none ∨ agid = hcfg.agid
  timing : ∀ d : NDoc α, In.doc d ∈ h → cfg.timeBase = d.timeBase ∧ (cfg.timeBase = "clock" → cfg.clockMode = d.clockMode)

theorem passedOn_delivered {hcfg : HCfg} {h : List (In α)} {d : NDoc α} (hd : d ∈ passedOn hcfg h) : In.doc d ∈ h :=
  (C34_in_delivery_order hcfg h).subset (List.mem_map.2 ⟨d, hd, rfl⟩)

theorem mem_received {hcfg : HCfg} {h : List (In α)} {a : Seq.Doc} : a ∈ received hcfg h ↔
    ∃ pre d post, passedOn hcfg h = pre ++ d :: post ∧ a = asReceived hcfg (pre.length + 1) d := by
  unfold received
  rw [List.mem_map, C34_output]
  constructor
  · rintro ⟨b, hb, he⟩
    obtain ⟨pre, d, post, h1, h2⟩ := mem_readdressed.1 hb
    refine ⟨pre, d, post, h1, ?_⟩
    rw [← he, h2, Nat.zero_add]
    rfl
  · rintro ⟨pre, d, post, h1, h2⟩
    refine ⟨_, mem_readdressed.2 ⟨pre, d, post, h1, rfl⟩, ?_⟩
    rw [h2, Nat.zero_add]
    rfl

/-- C91, nothing is lost.  Whatever is delivered to a handover node, by any number of producers in any order, a consumer behind it takes
every document the node gives out. -/
theorem C91_all_taken (cfg : Seq.Cfg) (agid : Option String) (hcfg : HCfg) (h : List (In α)) (hm : Matches cfg agid hcfg h)
    (hwt : ∀ d : NDoc α, In.doc d ∈ h → Seq.WellTimed d.toDoc) :
    ∀ o ∈ (consumer cfg agid hcfg h).2, o = .inserted := by
  refine run_increasing (g := hcfg.agid) _ _ ⟨Seq.Core.empty True, by simp [Seq.FinIn, Seq.State.init], Seq.Alt.nil⟩
    (by simp [Seq.State.init]) ?_ ?_ ?_ hm.group
  · intro a ha
    obtain ⟨pre, d, post, h1, h2⟩ := mem_received.1 ha
    have := hwt d (passedOn_delivered (by rw [h1]; simp))
    rw [h2]
    exact this
  · unfold received
    rw [List.pairwise_map, C34_output]
    exact readdressed_pairwise _ _ _
  · intro a ha
    obtain ⟨pre, d, post, h1, h2⟩ := mem_received.1 ha
    have hd : d ∈ passedOn hcfg h := by rw [h1]; simp
    have ht := hm.timing d (passedOn_delivered hd)
    rw [h2]
    exact ⟨⟨hm.id, ht.1, ht.2⟩, ((C35_switches_only_up hcfg h).2 d hd).1⟩

/-- C91.  At every time the consumer has active the last passed-on document that has begun, if its own end has not come: the numbers
the documents had at their producers do not matter. -/
theorem C91_shown (cfg : Seq.Cfg) (agid : Option String) (hcfg : HCfg) (h : List (In α)) (hm : Matches cfg agid hcfg h)
    (hwt : ∀ d : NDoc α, In.doc d ∈ h → Seq.WellTimed d.toDoc) (a : Seq.Doc) (t : Int) :
    Seq.ActiveAt (consumer cfg agid hcfg h).1 a t ↔
      ∃ pre d post, passedOn hcfg h = pre ++ d :: post ∧ a = asReceived hcfg (pre.length + 1) d ∧
        d.cbegin ≤ t ∧ (∀ e, d.cend = some e → t < e) ∧ ∀ y ∈ post, t < y.cbegin := by
  have hall := C91_all_taken cfg agid hcfg h hm hwt
  have hacc : Seq.accepted (received hcfg h) (consumer cfg agid hcfg h).2 = received hcfg h :=
    accepted_all _ _ (run_length _ _) hall
  have hw : ∀ x ∈ received hcfg h, Seq.WellTimed x := by
    intro x hx
    obtain ⟨pre, d, post, h1, h2⟩ := mem_received.1 hx
    have := hwt d (passedOn_delivered (by rw [h1]; simp))
    rw [h2]
    exact this
  have key := Seq.C02_active_is_newest_begun cfg agid (received hcfg h) hw (fun o ho => by rw [hall o ho]; rfl) a t
  have hacc' : Seq.accepted (received hcfg h) (Seq.run (Seq.State.init cfg agid) (received hcfg h)).2 = received hcfg h := hacc
  rw [hacc'] at key
  unfold consumer
  rw [key]
  constructor
  · rintro ⟨⟨ha, hb, hnew⟩, hend⟩
    obtain ⟨pre, d, post, h1, h2⟩ := mem_received.1 ha
    refine ⟨pre, d, post, h1, h2, by rw [h2] at hb; exact hb, by rw [h2] at hend; exact hend, ?_⟩
    intro y hy
    apply Classical.byContradiction
    intro hlt
    obtain ⟨p1, p2, hp⟩ := List.append_of_mem hy
    have hmem : asReceived hcfg ((pre ++ d :: p1).length + 1) y ∈ received hcfg h :=
      mem_received.2 ⟨pre ++ d :: p1, y, p2, by rw [h1, hp]; simp, rfl⟩
    have := hnew _ hmem (Int.not_lt.1 hlt)
    rw [h2] at this
    simp only [asReceived, List.length_append, List.length_cons] at this
    omega
  · rintro ⟨pre, d, post, h1, h2, hb, hend, hpost⟩
    refine ⟨⟨mem_received.2 ⟨pre, d, post, h1, h2⟩, by rw [h2]; exact hb, ?_⟩, by rw [h2]; exact hend⟩
    intro y hy hyb
    obtain ⟨pre', d', post', h1', h2'⟩ := mem_received.1 hy
    rw [h2', h2]
    simp only [asReceived]
    apply Classical.byContradiction
    intro hlt
    have hlen : pre.length < pre'.length := by omega
    have hd' : d' ∈ post := by
      rw [h1] at h1'
      have h3 : (pre ++ d :: post).drop (pre.length + 1) = post := by
        rw [show pre ++ d :: post = (pre ++ [d]) ++ post by simp, List.drop_left' (by simp)]
      rw [← h3, h1', List.drop_append_of_le_length (by omega)]
      simp
    have := hpost d' hd'
    rw [h2'] at hyb
    have hyb' : d'.cbegin ≤ t := hyb
    omega

/-- C91, switching.  Once a passed-on document has begun, nothing that was passed on before it is shown any more: after a
handover the previous producer's subtitles are gone as soon as the new producer's first document begins. -/
theorem C91_takes_over (cfg : Seq.Cfg) (agid : Option String) (hcfg : HCfg) (h : List (In α)) (hm : Matches cfg agid hcfg h)
    (hwt : ∀ d : NDoc α, In.doc d ∈ h → Seq.WellTimed d.toDoc) (pre post : List (NDoc α)) (d : NDoc α)
    (hp : passedOn hcfg h = pre ++ d :: post) (t : Int) (hb : d.cbegin ≤ t) (a : Seq.Doc)
    (ha : Seq.ActiveAt (consumer cfg agid hcfg h).1 a t) :
    ∃ (k : Nat) (x : NDoc α), (d :: post)[k]? = some x ∧ a = asReceived hcfg (pre.length + k + 1) x := by
  obtain ⟨pre', d', post', h1, h2, _, _, h5⟩ := (C91_shown cfg agid hcfg h hm hwt a t).1 ha
  have hle : pre.length ≤ pre'.length := by
    apply Classical.byContradiction
    intro hlt
    have hd : d ∈ post' := by
      rw [hp] at h1
      have h3 : (pre' ++ d' :: post').drop (pre'.length + 1) = post' := by
        rw [show pre' ++ d' :: post' = (pre' ++ [d']) ++ post' by simp, List.drop_left' (by simp)]
      rw [← h3, ← h1, List.drop_append_of_le_length (by omega)]
      simp
    have := h5 d hd
    omega
  refine ⟨pre'.length - pre.length, d', ?_, ?_⟩
  · have h3 : (passedOn hcfg h)[pre'.length]? = some d' := by rw [h1]; simp
    rw [hp, List.getElem?_append_right hle] at h3
    exact h3
  · rw [h2, show pre.length + (pre'.length - pre.length) + 1 = pre'.length + 1 by omega]

/-! ### One producer -/

/-- Specification: the history holds documents of one producer only, in the order of their numbers, all of them of the node's group and with
a token. -/
structure Single (hcfg : HCfg) (sid : String) (tb : String) (cm : Option String) (ds : List (NDoc α)) : Prop where
  sid : ∀ d ∈ ds, d.seqId = sid
  timing : ∀ d ∈ ds, d.timeBase = tb ∧ d.clockMode = cm ∧ clockOf d.toDoc ≠ none
  group : ∀ d ∈ ds, d.agid = hcfg.agid ∧ d.token ≠ none
  order : ds.Pairwise (fun a b => a.num < b.num)

theorem recorded_mem {n : Nat} {s : String} : ∀ {h : List (In α)} {rs : List (Except HErr (Option (In α)))},
    (s, n) ∈ recorded h rs → ∃ d : NDoc α, In.doc d ∈ h ∧ d.seqId = s ∧ d.num = n := by
  intro h
  induction h with
  | nil => intro rs hx; simp [recorded] at hx
  | cons i is ih =>
    intro rs hx
    have tl : ∀ rs', (s, n) ∈ recorded is rs' → ∃ d : NDoc α, In.doc d ∈ i :: is ∧ d.seqId = s ∧ d.num = n := by
      intro rs' hx'
      obtain ⟨d, h1, h2⟩ := ih hx'
      exact ⟨d, List.mem_cons_of_mem _ h1, h2⟩
    cases rs with
    | nil => cases i <;> simp [recorded] at hx
    | cons r rs =>
      cases i with
      | msg m => exact tl rs (by simpa [recorded] using hx)
      | doc d =>
        cases r with
        | error e => exact tl rs (by simpa [recorded] using hx)
        | ok o =>
          simp only [recorded, List.mem_cons] at hx
          rcases hx with hx | hx
          · injection hx with h1 h2
            exact ⟨d, List.mem_cons_self, h1.symm, h2.symm⟩
          · exact tl rs hx

theorem accepted_mem {sid : String} {n : Nat} : ∀ {h : List (String × Nat)} {bs : List Bool},
    n ∈ accepted sid h bs → (sid, n) ∈ h := by
  intro h
  induction h with
  | nil => intro bs hx; cases bs <;> simp [accepted] at hx
  | cons p h ih =>
    intro bs hx
    cases bs with
    | nil => simp [accepted] at hx
    | cons b bs =>
      obtain ⟨s', n'⟩ := p
      simp only [accepted] at hx
      split at hx
      · rename_i hh
        rcases List.mem_cons.1 hx with hx | hx
        · rw [hx]; simp [hh]
        · exact List.mem_cons_of_mem _ (ih hx)
      · exact List.mem_cons_of_mem _ (ih hx)

theorem single_passes (hcfg : HCfg) (sid tb : String) (cm : Option String) (ds : List (NDoc α)) (hs : Single hcfg sid tb cm ds) :
    passedOn hcfg (ds.map In.doc) = ds := by
  induction ds using snoc_induction with
  | nil => rfl
  | snoc ds d ih =>
    have hs' : Single hcfg sid tb cm ds :=
      ⟨fun x hx => hs.sid x (List.mem_append_left _ hx), fun x hx => hs.timing x (List.mem_append_left _ hx),
       fun x hx => hs.group x (List.mem_append_left _ hx), (List.pairwise_append.1 hs.order).1⟩
    have hd : d ∈ ds ++ [d] := by simp
    have hlt : ∀ x ∈ ds, x.num < d.num := fun x hx => (List.pairwise_append.1 hs.order).2.2 x hx d (by simp)
    have hi := ih hs'
    have hu : Uniform (ds.map In.doc) d := by
      refine ⟨(hs.timing d hd).2.2, ?_⟩
      intro x hx _
      obtain ⟨y, hy, he⟩ := List.mem_map.1 hx
      injection he with he
      rw [← he]
      have h1 := hs'.timing y hy
      have h2 := hs.timing d hd
      exact ⟨by rw [h1.1, h2.1], by rw [h1.2.1, h2.2.1], by rw [(hs'.group y hy).1, (hs.group d hd).1]⟩
    have hok := C35_uniform_not_refused hcfg (ds.map In.doc) d hu
    obtain ⟨t, ht⟩ := Option.ne_none_iff_exists'.1 (hs.group d hd).2
    have hpass := (C35_passed_on_iff hcfg (ds.map In.doc) d).2 ⟨hok, by
      intro hmem
      have h1 := accepted_mem (List.mem_of_mem_drop hmem)
      obtain ⟨x, hx, _, hn⟩ := recorded_mem h1
      obtain ⟨y, hy, he⟩ := List.mem_map.1 hx
      injection he with he
      have := hlt y hy
      rw [he, hn] at this
      omega, (hs.group d hd).1, t, ht, by
      intro l hl
      rw [hi] at hl
      have hm : l ∈ ds := List.mem_of_getLast? hl
      right
      rw [hs'.sid l hm, hs.sid d hd]⟩
    obtain ⟨o, ho⟩ := hpass
    rw [List.map_append, List.map_cons, List.map_nil, passedOn_snoc, hi, ho]
    simp [chosen]

/-- C91, one producer.  If all documents come from one producer of the group, in order, a consumer behind the node has active at every
time what a consumer in front of the node has: the `n`-th document behind is the `n`-th document in front. -/
theorem C91_single_producer (cfg : Seq.Cfg) (agid : Option String) (hcfg : HCfg) (ds : List (NDoc α)) (sid tb : String)
    (cm : Option String) (hs : Single hcfg sid tb cm ds) (hid : cfg.seqId = sid) (htb : cfg.timeBase = tb)
    (hcm : cfg.timeBase = "clock" → cfg.clockMode = cm) (hg : agid = none ∨ agid = hcfg.agid)
    (hwt : ∀ d ∈ ds, Seq.WellTimed d.toDoc) (pre post : List (NDoc α)) (d : NDoc α) (hp : ds = pre ++ d :: post) (t : Int) :
    Seq.ActiveAt (consumer { cfg with seqId := hcfg.outId } agid hcfg (ds.map In.doc)).1 (asReceived hcfg (pre.length + 1) d) t ↔
      Seq.ActiveAt (Seq.run (Seq.State.init cfg agid) (ds.map (·.toDoc))).1 d.toDoc t := by
  have hpass := single_passes hcfg sid tb cm ds hs
  have hin : ∀ x : NDoc α, In.doc x ∈ ds.map In.doc → x ∈ ds := by
    intro x hx
    obtain ⟨y, hy, he⟩ := List.mem_map.1 hx
    injection he with he
    rw [← he]; exact hy
  have hm : Matches { cfg with seqId := hcfg.outId } agid hcfg (ds.map In.doc) := by
    refine ⟨rfl, hg, ?_⟩
    intro x hx
    have h1 := hs.timing x (hin x hx)
    exact ⟨by rw [h1.1]; exact htb, fun h => by rw [h1.2.1]; exact hcm h⟩
  rw [C91_shown _ agid hcfg _ hm (fun x hx => hwt x (hin x hx)), hpass]
  have hw' : ∀ x ∈ ds.map (·.toDoc), Seq.WellTimed x := by
    intro x hx
    obtain ⟨y, hy, he⟩ := List.mem_map.1 hx
    rw [← he]; exact hwt y hy
  have hinc : (ds.map (·.toDoc)).Pairwise (fun a b => a.num < b.num) := by
    rw [List.pairwise_map]; exact hs.order
  have hall : ∀ o ∈ (Seq.run (Seq.State.init cfg agid) (ds.map (·.toDoc))).2, o = .inserted := by
    refine run_increasing (g := hcfg.agid) _ _ ⟨Seq.Core.empty True, by simp [Seq.FinIn, Seq.State.init], Seq.Alt.nil⟩
      (by simp [Seq.State.init]) hw' hinc ?_ hg
    intro x hx
    obtain ⟨y, hy, he⟩ := List.mem_map.1 hx
    rw [← he]
    have h1 := hs.timing y hy
    exact ⟨⟨by rw [hs.sid y hy]; exact hid, by rw [h1.1]; exact htb, fun h => by rw [h1.2.1]; exact hcm h⟩, (hs.group y hy).1⟩
  have key := Seq.C02_active_is_newest_begun cfg agid _ hw' (fun o ho => by rw [hall o ho]; rfl) d.toDoc t
  rw [accepted_all _ _ (run_length _ _) hall] at key
  rw [key]
  have hord := hs.order
  rw [hp] at hord
  obtain ⟨ho1, ho2, ho3⟩ := List.pairwise_append.1 hord
  rw [List.pairwise_cons] at ho2
  constructor
  · rintro ⟨pre', d', post', h1, h2, hb, hend, hpost⟩
    have hlen : pre.length = pre'.length := by
      have := congrArg Seq.Doc.num h2
      simp only [asReceived] at this
      omega
    rw [hp] at h1
    obtain ⟨e1, e2⟩ := List.append_inj h1 hlen
    injection e2 with e2 e3
    rw [← e2] at hb hend
    rw [← e3] at hpost
    refine ⟨⟨List.mem_map.2 ⟨d, by rw [hp]; simp, rfl⟩, hb, ?_⟩, hend⟩
    intro y hy hyb
    obtain ⟨z, hz, he⟩ := List.mem_map.1 hy
    rw [← he] at hyb ⊢
    rw [hp] at hz
    rcases List.mem_append.1 hz with hz | hz
    · exact Nat.le_of_lt (ho3 z hz d List.mem_cons_self)
    · rcases List.mem_cons.1 hz with hz | hz
      · rw [hz]; exact Nat.le_refl _
      · have := hpost z hz
        omega
  · rintro ⟨⟨_, hb, hnew⟩, hend⟩
    refine ⟨pre, d, post, hp, rfl, hb, hend, ?_⟩
    intro y hy
    apply Classical.byContradiction
    intro hlt
    have := hnew y.toDoc (List.mem_map.2 ⟨y, by rw [hp]; simp [hy], rfl⟩) (Int.not_lt.1 hlt)
    have := ho2.1 y hy
    omega

/-! ### Examples -/

/-- A document of group `g` from producer `sid` with number `n`, token `k` and times. -/
def exTimedDoc (sid : String) (n k : Nat) (b : Int) (e : Option Int) : NDoc String :=
  { exDoc sid n "g" (some k) with cbegin := b, cend := e }

/-- Producer `a` is followed by `b` with a greater token; `a` goes on without being heard. -/
def exHandover : List (In String) :=
  [.doc (exTimedDoc "a" 7 1 0 none), .doc (exTimedDoc "b" 1 2 10 (some 15)), .doc (exTimedDoc "a" 8 1 12 none)]

def exSeqCfg : Seq.Cfg := ⟨"out", "clock", some "local"⟩

theorem exMatches : Matches exSeqCfg none exCfg exHandover := by
  refine ⟨rfl, .inl rfl, ?_⟩
  intro d hd
  simp only [exHandover, List.mem_cons, In.doc.injEq, List.not_mem_nil, or_false] at hd
  rcases hd with h | h | h <;> · rw [h]; exact ⟨rfl, fun _ => rfl⟩

theorem exWellTimed : ∀ d : NDoc String, In.doc d ∈ exHandover → Seq.WellTimed d.toDoc := by
  intro d hd
  simp only [exHandover, List.mem_cons, In.doc.injEq, List.not_mem_nil, or_false] at hd
  rcases hd with h | h | h <;> · rw [h]; refine ⟨by decide, ?_⟩; intro e he; simp [exTimedDoc] at he; try (rw [← he]; decide)

example : passedOn exCfg exHandover = [exTimedDoc "a" 7 1 0 none] ++ exTimedDoc "b" 1 2 10 (some 15) :: [] := by decide +kernel

/-- At 9 the first producer's document is shown, at 12 the second producer's, at 15 nothing. -/
example : Seq.ActiveAt (consumer exSeqCfg none exCfg exHandover).1 (asReceived exCfg 1 (exTimedDoc "a" 7 1 0 none)) 9 ∧
    Seq.ActiveAt (consumer exSeqCfg none exCfg exHandover).1 (asReceived exCfg 2 (exTimedDoc "b" 1 2 10 (some 15))) 12 ∧
    ∀ a, ¬ Seq.ActiveAt (consumer exSeqCfg none exCfg exHandover).1 a 15 := by
  have hp : passedOn exCfg exHandover = [exTimedDoc "a" 7 1 0 none, exTimedDoc "b" 1 2 10 (some 15)] := by decide +kernel
  have key := C91_shown exSeqCfg none exCfg exHandover exMatches exWellTimed
  refine ⟨(key _ _).2 ⟨[], _, _, hp, rfl, by decide, by decide, by decide⟩,
    (key _ _).2 ⟨[exTimedDoc "a" 7 1 0 none], _, [], hp, rfl, by decide, by decide, by decide⟩, ?_⟩
  intro a ha
  obtain ⟨k, x, h1, h2⟩ := C91_takes_over exSeqCfg none exCfg exHandover exMatches exWellTimed [exTimedDoc "a" 7 1 0 none] []
    (exTimedDoc "b" 1 2 10 (some 15)) hp 15 (by decide) a ha
  cases k with
  | succ k => simp at h1
  | zero =>
    simp only [List.getElem?_cons_zero, Option.some.injEq] at h1
    obtain ⟨pre, d, post, _, h4, _, h5, _⟩ := (key a 15).1 ha
    rw [h2, ← h1] at h4
    have := h5 15 (by have := congrArg Seq.Doc.cend h4; exact this.symm)
    omega

example : Single exCfg "a" "clock" (some "local") [exTimedDoc "a" 7 1 0 none, exTimedDoc "a" 8 1 12 none] := by
  constructor <;> decide

/-- C91 is false of producers that send out of order: the node numbers by arrival.  Document 2 comes before document 1 and begins at the
same time; the consumer in front of the node keeps 2, the one behind it shows 1. -/
theorem C91_false_out_of_order :
    let ds := [exTimedDoc "a" 2 1 5 none, exTimedDoc "a" 1 1 5 none]
    (Seq.run (Seq.State.init ⟨"a", "clock", some "local"⟩ none) (ds.map (·.toDoc))).1.docs.map (·.uid) = [2] ∧
    (consumer exSeqCfg none exCfg (ds.map In.doc)).1.docs.map (·.uid) = [1] := by decide +kernel

/-- C91 is false of producers with different time bases: the node passes both on in one sequence, and the consumer refuses the second. -/
theorem C91_false_time_bases :
    (consumer exSeqCfg none exCfg [.doc (exTimedDoc "a" 1 1 0 none),
      .doc { exTimedDoc "b" 1 2 10 none with timeBase := "media", clockMode := none }]).2 = [.inserted, .incompatible] := by decide +kernel

end Verif.Node
