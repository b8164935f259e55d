import Verif.Convert.DelayChain
import Verif.Convert.DelayedDoc
import Verif.Convert.TimerChainProps

/-! C104: behind a retiming delay node, the readers of the EBU-TT-D documents read everything the delay later. -/
namespace Verif.Convert

open Verif.Doc Verif.Time Verif.Node

/-! ### Specification -/

/-- Specification: the documents delivered, in order. -/
def carried (evs : List DEv) : List Carried :=
  evs.filterMap (fun e => match e with
    | .deliver x => some x
    | _ => none)

/-- Specification: the event is the delivery of a document. -/
def DEv.isDoc : DEv → Bool
  | .deliver _ => true
  | _ => false

/-- Specification: the event is a call of the timer. -/
def DEv.isTick : DEv → Bool
  | .tick => true
  | _ => false

/-- Specification: how often the timer ran after the first document came. -/
def timerCalls (evs : List DEv) : Nat := (evs.dropWhile (fun e => !e.isDoc)).countP DEv.isTick

/-- Specification: the document as somebody has it who got it the delay earlier, from where the delay node gets it. -/
def Carried.early (d : Int) (x : Carried) : Source := x.source x.doc.body (x.before d)

/-- Specification: when that document begins. -/
def Carried.begins (d : Int) (x : Carried) : Int := (x.near d).cbegin

/-- Specification: when it ends, if it does. -/
def Carried.ends (d : Int) (x : Carried) : Option Int := (x.near d).cend

/-- The document as the delay node hands it on. -/
def Carried.late (rd : Reader) (d : Int) (x : Carried) : Source := x.source (x.later rd d) x.avail

/-- What is assumed of a document: for retiming what C37 assumes, sensible computed times, times and arrival in whole milliseconds, lines
that hold no other lines, no nested paragraphs. -/
structure Fit (d : Int) (base : TimeBase) (x : Carried) : Prop where
  steady : Steady d x.toDelivery
  timed : Seq.WellTimed (x.near d)
  rd : x.rd.Accurate
  avail : 0 ≤ x.avail ∧ x.avail % 1000 = 0
  sane : Sane x.doc.body
  inMs : inMs x.doc.body = true
  lined : lined true x.doc.body = true
  flat : flat x.doc.body = true
  base : x.doc.base = base

/-- The segmenter copies all styles and regions that elements inside the window refer to, as in C10. -/
def Copies (src : Source) : Prop :=
  ∀ doc wb we, validateDoc src.avail src.root = .ok doc → (∀ b, wb = some b → b < we) →
    ∀ anc x kids, Reach doc anc (.elem x kids) → (∀ z ∈ anc ++ [x], Overlaps ⟨wb, some we⟩ z.comp = true) →
    (∀ s ∈ x.att.style, (src.ref ⟨wb, some we⟩ s).isSome = true) ∧
    ∀ r, hasRegion x.att.kind = true → x.att.region = some r → (src.ref ⟨wb, some we⟩ r).isSome = true

/-! ### One document -/

theorem arrived_sent (x : Carried) (o : TDoc) (now : Int) : arrived now (sentAs x o) = Node.heldAs x.toDelivery o now := rfl

/-- The document behind the node. -/
theorem late_facts {rd : Reader} (hrd : rd.Accurate) {d : Int} (hd : 0 < d) (hdm : d % 1000 = 0) (hd1 : d < 360000000000) {base : TimeBase}
    {x : Carried} (hx : Fit d base x) {sid out : String} (hsid : x.doc.sid = sid) :
    (retimeDoc x.doc.base rd d x.doc.body).isSome = true ∧
    Node.heldAs x.toDelivery (retimed rd out d x.toDelivery) x.avail = (x.near d).mv (swap sid out) d ∧
    (∀ t, linesIn (x.late rd d) (t + d) = linesIn (x.early d) t) ∧
    ∀ hi, (x.doc.base = .media ∨ x.doc.base = .clock ∧ hi < 100 * 3600000000) → Copies (x.late rd d) →
      (x.late rd d).Sound ((x.near d).mv (swap sid out) d) hi ∧ Doc.lined true (x.late rd d).root = true ∧ flat (x.late rd d).root = true := by
  obtain ⟨body, h1, h2, _⟩ := held_moved rd hrd d hd hdm hd1 x.toDelivery hx.steady sid out hsid
  obtain ⟨hb, a, kids, hbody, hk, hsh, hm, hdur⟩ := hx.steady
  have hlater : x.later rd d = body := by rw [Carried.later, h1]; rfl
  have hret : retimed rd out d x.toDelivery = { x.doc with sid := out, body := body } := by simp only [retimed, h1, Option.getD_some]
  have hsane := hx.sane
  have hms := hx.inMs
  have hsh' := hsh
  rw [hbody] at h1 hsh hm hdur hsane hms
  obtain ⟨k1, k2, k3, k4⟩ := retimed_keeps hrd hb hd hdm hd1 hm hsane hms h1
  rw [← hbody] at k4
  refine ⟨by rw [hbody, h1]; rfl, by rw [hret]; exact h2, ?_, ?_⟩
  · obtain ⟨r, g1, g2, v, v', g3, g4, g5⟩ := C37_everything_moves_partial rd hrd x.doc.base hb d x.avail hd hdm hd1 a kids hk hsh hm hdur
    have hr : r = body := by rw [h1] at g1; exact (Option.some.inj g1).symm
    subst hr
    intro t
    unfold linesIn Carried.late Carried.early Carried.source
    simp only [hlater, hbody]
    have g3' : validateDoc (x.before d) (.elem a kids) = .ok v := g3
    rw [g4, g3']
    have er : ∀ (av : Int) (n : Node Att), erase (times av 0 none n) = n := by
      intro av n
      obtain ⟨w, e1, e2⟩ := Doc.C15_context_restored (Doc.initCtx av) n
      rw [Doc.validate_eq] at e1
      injection e1 with e1
      injection e1 with _ e1
      rw [← e1] at e2
      exact e2
    rw [Doc.validateDoc_eq] at g3 g4
    injection g3 with g3
    injection g4 with g4
    exact linesAt_moved d t (by rw [← g3, ← g4, er, er]; exact g2) g5
  · intro hi hbase hcop
    refine ⟨⟨hx.rd, hx.avail.1, hx.avail.2, ?_, ?_, ?_, ?_, hbase, hcop, ?_⟩, ?_, ?_⟩
    · simp only [Carried.late, Carried.source, hlater]; exact k1
    · simp only [Carried.late, Carried.source, hlater]
      rw [← shaped_untimed, k4, shaped_untimed]; exact hsh'
    · simp only [Carried.late, Carried.source, hlater]; exact k2
    · simp only [Carried.late, Carried.source, hlater]; exact k3
    · simp only [Carried.late, Carried.source, hlater]
      obtain ⟨a', kids', he⟩ := retimeDoc_elem h1
      obtain ⟨lab, ks, hv, hvb, hve⟩ := heldAs_times (x := x.toDelivery) (doc := { x.doc with sid := out, body := body }) (avail := x.avail) he
      rw [h2] at hvb hve
      exact ⟨lab, ks, hv, hvb, hve⟩
    · simp only [Carried.late, Carried.source, hlater]
      rw [← lined_untimed, k4, lined_untimed]; exact hx.lined
    · simp only [Carried.late, Carried.source, hlater]
      rw [← flat_untimed, k4, flat_untimed]; exact hx.flat

/-- The document in front of the node. -/
theorem early_facts {d : Int} (hdm : d % 1000 = 0) {base : TimeBase} {x : Carried} (hx : Fit d base x)
    (hi : Int) (hbase : x.doc.base = .media ∨ x.doc.base = .clock ∧ hi < 100 * 3600000000) (hcop : Copies (x.early d)) :
    (x.early d).Sound (x.near d) hi := by
  obtain ⟨_, a, kids, hbody, _, hsh, hm, _⟩ := hx.steady
  refine ⟨hx.rd, ?_, ?_, hx.sane, hsh, wellTimed_of _ hm, hx.inMs, hbase, hcop, ?_⟩
  · simp only [Carried.early, Carried.source, Delivery.before]; omega
  · have := hx.avail
    simp only [Carried.early, Carried.source, Delivery.before]; omega
  · obtain ⟨lab, ks, hv, hvb, hve⟩ := heldAs_times (x := x.toDelivery) (doc := x.doc) (avail := x.before d) hbody
    exact ⟨lab, ks, hv, hvb, hve⟩

/-! ### What the resequencer gets -/

/-- One event, with the documents given on as `h` says. -/
def relay (h : Carried → Int × CDoc) : DEv → REv
  | .deliver x => .deliver (h x).1 (some (h x).2)
  | .msg _ => .deliver 0 none
  | .tick => .tick

theorem without_map (d : Int) : ∀ evs : List DEv, without d evs = evs.map (relay (fun x => (x.before d, sentAs x x.doc)))
  | [] => rfl
  | .tick :: es => by rw [without, without_map d es]; rfl
  | .msg _ :: es => by rw [without, without_map d es]; rfl
  | .deliver x :: es => by rw [without, without_map d es]; rfl

theorem behind_map (rd : Reader) (out sid : String) (hne : sid ≠ out) (d : Int) : ∀ (evs : List DEv) (s : TState),
    s.first.getD sid = sid → (∀ x ∈ carried evs, x.doc.sid = sid) → ((carried evs).map (fun x => x.doc.num)).Nodup →
    (∀ x ∈ carried evs, x.doc.num ∉ s.seen.get sid) → (∀ x ∈ carried evs, (retimeDoc x.doc.base rd d x.doc.body).isSome = true) →
    behindDelay rd out d s evs = evs.map (relay (fun x => (x.avail, sentAs x (retimed rd out d x.toDelivery))))
  | [], _, _, _, _, _, _ => rfl
  | .tick :: es, s, hf, hs, hn, hseen, hr => by
    rw [behindDelay, behind_map rd out sid hne d es s hf hs hn hseen hr]; rfl
  | .msg m :: es, s, hf, hs, hn, hseen, hr => by
    have := behind_map rd out sid hne d es s hf hs hn hseen hr
    simp only [behindDelay, retimeNode, this, List.map_cons, relay]
  | .deliver x :: es, s, hf, hs, hn, hseen, hr => by
    have hc : carried (.deliver x :: es) = x :: carried es := rfl
    rw [hc] at hs hn hseen hr
    have hsid := hs x (by simp)
    obtain ⟨body, hbody⟩ := Option.isSome_iff_exists.1 (hr x (by simp))
    simp only [List.map_cons, List.nodup_cons] at hn
    have hnew : x.doc.num ∉ s.seen.get x.doc.sid := by rw [hsid]; exact hseen x (by simp)
    have hstep : retimeNode rd out d s (.doc x.doc) =
        ({ seen := s.seen.push x.doc.sid x.doc.num, first := some x.doc.sid }, .emitted (.doc (retimed rd out d x.toDelivery))) := by
      unfold retimeNode
      simp only [checkSeen, if_neg hnew, if_true]
      rw [if_neg (by rw [hsid]; exact hne), if_neg (by rw [hsid, hf]; simp), hbody]
      simp only [retimed, hbody, Option.getD_some]
    have ih := behind_map rd out sid hne d es { seen := s.seen.push x.doc.sid x.doc.num, first := some x.doc.sid } (by simp [hsid])
      (fun y hy => hs y (List.mem_cons_of_mem _ hy)) hn.2 (by
        intro y hy
        rw [Seen.get_push]
        simp only [hsid, if_true]
        intro hmem
        have hmem' := List.mem_of_mem_drop hmem
        simp only [List.mem_append, List.mem_singleton] at hmem'
        rcases hmem' with h | h
        · exact hseen y (List.mem_cons_of_mem _ hy) h
        · exact hn.1 (by rw [← h]; exact List.mem_map.2 ⟨y, hy, rfl⟩)) (fun y hy => hr y (List.mem_cons_of_mem _ hy))
    simp only [behindDelay, hstep, ih, List.map_cons, relay]

theorem deliveries_relay (h : Carried → Int × CDoc) : ∀ evs : List DEv,
    deliveries (evs.map (relay h)) = (carried evs).map (fun x => arrived (h x).1 (h x).2)
  | [] => rfl
  | .tick :: es => deliveries_relay h es
  | .msg _ :: es => deliveries_relay h es
  | .deliver x :: es => by
    have := deliveries_relay h es
    simp only [List.map_cons, relay, carried, deliveries, List.filterMap_cons] at this ⊢
    rw [this]

theorem ticks_relay (h : Carried → Int × CDoc) (evs : List DEv) : ticksAfterFirst (evs.map (relay h)) = timerCalls evs := by
  unfold ticksAfterFirst timerCalls
  rw [List.dropWhile_map, List.countP_map]
  have e1 : (fun e : REv => !e.isDoc) ∘ relay h = fun e : DEv => !e.isDoc := by
    funext e; cases e <;> rfl
  have e2 : REv.isTick ∘ relay h = DEv.isTick := by
    funext e; cases e <;> rfl
  rw [e1, e2]

theorem relay_tick {h : Carried → Int × CDoc} {evs : List DEv} {k : Nat} (hk : (evs.map (relay h))[k]? = some .tick) : evs[k]? = some .tick := by
  rw [List.getElem?_map, Option.map_eq_some_iff] at hk
  obtain ⟨e, h1, h2⟩ := hk
  cases e with
  | tick => exact h1
  | msg m => simp [relay] at h2
  | deliver x => simp [relay] at h2

theorem carried_append (a b : List DEv) : carried (a ++ b) = carried a ++ carried b := by
  unfold carried; rw [List.filterMap_append]

theorem carried_take (evs : List DEv) (k : Nat) : ∃ rest, carried evs = carried (evs.take k) ++ rest :=
  ⟨carried (evs.drop k), by rw [← carried_append, List.take_append_drop]⟩

theorem carried_nil : ∀ {evs : List DEv}, evs.dropWhile (fun e => !e.isDoc) = [] → carried evs = []
  | [], _ => rfl
  | .tick :: es, h => carried_nil (evs := es) (by simpa [List.dropWhile, DEv.isDoc] using h)
  | .msg _ :: es, h => carried_nil (evs := es) (by simpa [List.dropWhile, DEv.isDoc] using h)
  | .deliver x :: es, h => by simp [List.dropWhile, DEv.isDoc] at h

/-- A later call of the timer has a later window. -/
theorem timerCalls_lt {evs : List DEv} {i j : Nat} (hij : i < j) (hi : evs[i]? = some .tick) (hc : carried (evs.take i) ≠ []) :
    timerCalls (evs.take i) < timerCalls (evs.take j) := by
  have hsplit : evs.take j = evs.take i ++ .tick :: (evs.take j).drop (i + 1) := by
    have h1 : (evs.take j).take i = evs.take i := by rw [List.take_take, Nat.min_eq_left (by omega)]
    have h2 : (evs.take j)[i]? = some .tick := by rw [List.getElem?_take_of_lt hij]; exact hi
    have h3 : (evs.take j).drop i = .tick :: (evs.take j).drop (i + 1) := by
      have hlt := (List.getElem?_eq_some_iff.1 h2).1
      rw [List.drop_eq_getElem_cons hlt]
      rw [List.getElem?_eq_some_iff] at h2
      obtain ⟨_, h2⟩ := h2
      rw [h2]
    rw [← h1, ← h3, List.take_append_drop]
  rw [hsplit]
  unfold timerCalls
  rw [List.dropWhile_append, if_neg (by rw [List.isEmpty_iff]; exact fun h => hc (carried_nil h)), List.countP_append, List.countP_cons]
  simp only [DEv.isTick, if_true]
  omega

theorem same_call {evs : List DEv} {i j : Nat} {start len t : Int} (hl : 0 < len) (hi : evs[i]? = some .tick) (hj : evs[j]? = some .tick)
    (hci : carried (evs.take i) ≠ []) (hcj : carried (evs.take j) ≠ [])
    (h1 : start + timerCalls (evs.take i) * len ≤ t) (h2 : t < start + timerCalls (evs.take i) * len + len)
    (h3 : start + timerCalls (evs.take j) * len ≤ t) (h4 : t < start + timerCalls (evs.take j) * len + len) : i = j := by
  have aux : ∀ (a b : Nat), a < b → start + b * len ≤ t → t < start + a * len + len → False := by
    intro a b hab hb ha
    have : ((a + 1 : Nat) : Int) * len ≤ b * len := Int.mul_le_mul_of_nonneg_right (by omega) (by omega)
    rw [Int.natCast_add, Int.add_mul] at this
    simp only [Int.natCast_one, Int.one_mul] at this
    omega
  apply Classical.byContradiction
  intro hne
  rcases Nat.lt_or_gt_of_ne hne with hlt | hlt
  · exact aux _ _ (timerCalls_lt hlt hi hci) h3 h2
  · exact aux _ _ (timerCalls_lt hlt hj hcj) h1 h4

theorem sourceOf_held {f : Carried → Source} {xs : List Carried} (hn : xs.Pairwise (fun a b => a.doc.num < b.doc.num)) {x : Carried} (hx : x ∈ xs)
    {a : Seq.Doc} (ha : a.num = x.doc.num) : sourceOf f xs a = f x := by
  unfold sourceOf
  have : xs.find? (fun y => y.doc.num == a.num) = some x := by
    rw [ha]
    clear ha
    induction xs with
    | nil => cases hx
    | cons y ys ih =>
      rw [List.pairwise_cons] at hn
      rcases List.mem_cons.1 hx with rfl | hx
      · simp
      · have hlt := hn.1 x hx
        rw [List.find?_cons_of_neg (by simp; omega)]
        exact ih hn.2 hx
  rw [this]

theorem nums_nodup {xs : List Carried} (hn : xs.Pairwise (fun a b => a.doc.num < b.doc.num)) : (xs.map (fun x => x.doc.num)).Nodup := by
  rw [List.Nodup, List.pairwise_map]
  exact hn.imp (fun h => Nat.ne_of_lt h)

theorem newest_mv (f : String → String) (d : Int) {ds : List Seq.Doc} {t : Int} {a : Seq.Doc} :
    Seq.Newest ds t a → Seq.Newest (ds.map (Seq.Doc.mv f d)) (t + d) (a.mv f d) := by
  rintro ⟨h1, h2, h3⟩
  refine ⟨List.mem_map.2 ⟨a, h1, rfl⟩, by simp only [Seq.Doc.mv]; omega, ?_⟩
  intro y hy hyt
  obtain ⟨z, hz, rfl⟩ := List.mem_map.1 hy
  exact h3 z hz (by simp only [Seq.Doc.mv] at hyt; omega)

theorem newest_of_mv (f : String → String) (d : Int) {ds : List Seq.Doc} {t : Int} {b : Seq.Doc}
    (h : Seq.Newest (ds.map (Seq.Doc.mv f d)) (t + d) b) : ∃ a, b = a.mv f d ∧ Seq.Newest ds t a := by
  obtain ⟨h1, h2, h3⟩ := h
  obtain ⟨a, ha, rfl⟩ := List.mem_map.1 h1
  refine ⟨a, rfl, ha, by simp only [Seq.Doc.mv] at h2; omega, ?_⟩
  intro y hy hyt
  exact h3 (y.mv f d) (List.mem_map.2 ⟨y, hy, rfl⟩) (by simp only [Seq.Doc.mv]; omega)

theorem endsAfter_mv (f : String → String) (d : Int) (a : Seq.Doc) (t : Int) : Seq.EndsAfter (a.mv f d) (t + d) ↔ Seq.EndsAfter a t := by
  unfold Seq.EndsAfter
  simp only [Seq.Doc.mv]
  cases a.cend with
  | none => simp
  | some e => simp

/-! ### The chain -/

/-- The conditions on the whole course of events, for `C104_read_later_partial` and `C104_delayed_partial`: the documents are of one sequence, each
newer than those before, for one time base and clock and one authors group, and each is `Fit`. -/
structure Course (d : Int) (sid : String) (cfg : Seq.Cfg) (g : Option String) (base : TimeBase) (xs : List Carried) : Prop where
  newer : xs.Pairwise (fun a b => a.doc.num < b.doc.num)
  sid : ∀ x ∈ xs, x.doc.sid = sid
  clock : ∀ x ∈ xs, clockOf (x.near d) = some cfg
  group : ∀ x ∈ xs, x.agid = g
  fit : ∀ x ∈ xs, Fit d base x

theorem clockOf_mv {f : String → String} {d : Int} {a : Seq.Doc} {cfg : Seq.Cfg} (h : clockOf a = some cfg) :
    clockOf (a.mv f d) = some { cfg with seqId := f cfg.seqId } := by
  have key : clockOf (a.mv f d) = (clockOf a).map (fun c => { c with seqId := f c.seqId }) := by
    have e1 : (a.mv f d).timeBase = a.timeBase := rfl
    have e2 : (a.mv f d).clockMode = a.clockMode := rfl
    have e3 : (a.mv f d).seqId = f a.seqId := rfl
    unfold clockOf
    rw [e1, e2, e3]
    repeat' split
    all_goals rfl
  rw [key, h]
  rfl

theorem fit_base {d : Int} {base : TimeBase} {x : Carried} (hx : Fit d base x) {hi : Int} (h : hi < 100 * 3600000000) :
    x.doc.base = .media ∨ x.doc.base = .clock ∧ hi < 100 * 3600000000 := by
  have hb := hx.steady.1
  cases hbb : x.doc.base with
  | media => exact .inl rfl
  | clock => exact .inr ⟨rfl, h⟩
  | smpte => exact absurd hbb hb

theorem Course.prefix {d : Int} {sid : String} {cfg : Seq.Cfg} {g : Option String} {base : TimeBase} {xs ys : List Carried}
    (h : Course d sid cfg g base (xs ++ ys)) : Course d sid cfg g base xs :=
  ⟨(List.pairwise_append.1 h.newer).1, fun x hx => h.sid x (List.mem_append_left _ hx), fun x hx => h.clock x (List.mem_append_left _ hx),
    fun x hx => h.group x (List.mem_append_left _ hx), fun x hx => h.fit x (List.mem_append_left _ hx)⟩

theorem Course.take {d : Int} {sid : String} {cfg : Seq.Cfg} {g : Option String} {base : TimeBase} {evs : List DEv}
    (h : Course d sid cfg g base (carried evs)) (k : Nat) : Course d sid cfg g base (carried (evs.take k)) := by
  obtain ⟨rest, hr⟩ := carried_take evs k
  rw [hr] at h
  exact h.prefix

theorem near_num (d : Int) (x : Carried) : (x.near d).num = x.doc.num := rfl

/-- What the resequencer behind the node gets. -/
theorem course_behind {rd : Reader} (hrd : rd.Accurate) {d : Int} (hd : 0 < d) (hdm : d % 1000 = 0) (hd1 : d < 360000000000)
    {sid out : String} (hne : sid ≠ out) {cfg : Seq.Cfg} {g : Option String} {base : TimeBase} {evs : List DEv}
    (h : Course d sid cfg g base (carried evs)) :
    behindDelay rd out d {} evs = evs.map (relay (fun x => (x.avail, sentAs x (retimed rd out d x.toDelivery)))) ∧
    deliveries (behindDelay rd out d {} evs) = ((carried evs).map (fun x => x.near d)).map (Seq.Doc.mv (swap sid out) d) ∧
    InSeq { cfg with seqId := swap sid out cfg.seqId } g (deliveries (behindDelay rd out d {} evs)) := by
  have hmap := behind_map rd out sid hne d evs {} rfl h.sid (nums_nodup h.newer) (by intro x _; simp [Seen.get])
    (fun x hx => (late_facts hrd hd hdm hd1 (h.fit x hx) (out := out) (h.sid x hx)).1)
  have hdel : deliveries (behindDelay rd out d {} evs) = ((carried evs).map (fun x => x.near d)).map (Seq.Doc.mv (swap sid out) d) := by
    rw [hmap, deliveries_relay, List.map_map]
    apply List.map_congr_left
    intro x hx
    exact (late_facts hrd hd hdm hd1 (h.fit x hx) (out := out) (h.sid x hx)).2.1
  refine ⟨hmap, hdel, ?_⟩
  rw [hdel]
  refine ⟨?_, ?_, ?_, ?_⟩
  · rw [List.pairwise_map, List.pairwise_map]
    exact h.newer
  · intro a ha
    obtain ⟨b, hb, rfl⟩ := List.mem_map.1 ha
    obtain ⟨x, hx, rfl⟩ := List.mem_map.1 hb
    obtain ⟨h1, h2⟩ := (h.fit x hx).timed
    refine ⟨by simp only [Seq.Doc.mv]; omega, ?_⟩
    intro e he
    simp only [Seq.Doc.mv, Option.map_eq_some_iff] at he
    obtain ⟨e', he', rfl⟩ := he
    have := h2 e' he'
    simp only [Seq.Doc.mv]; omega
  · intro a ha
    obtain ⟨b, hb, rfl⟩ := List.mem_map.1 ha
    obtain ⟨x, hx, rfl⟩ := List.mem_map.1 hb
    exact clockOf_mv (h.clock x hx)
  · intro a ha
    obtain ⟨b, hb, rfl⟩ := List.mem_map.1 ha
    obtain ⟨x, hx, rfl⟩ := List.mem_map.1 hb
    exact h.group x hx

/-- What a resequencer in front of it would get. -/
theorem course_without {d : Int} {sid : String} {cfg : Seq.Cfg} {g : Option String} {base : TimeBase} {evs : List DEv}
    (h : Course d sid cfg g base (carried evs)) :
    deliveries (without d evs) = (carried evs).map (fun x => x.near d) ∧ InSeq cfg g (deliveries (without d evs)) := by
  have hdel : deliveries (without d evs) = (carried evs).map (fun x => x.near d) := by
    rw [without_map, deliveries_relay]
    rfl
  refine ⟨hdel, ?_⟩
  rw [hdel]
  refine ⟨?_, ?_, ?_, ?_⟩
  · rw [List.pairwise_map]
    exact h.newer
  · intro a ha
    obtain ⟨x, hx, rfl⟩ := List.mem_map.1 ha
    exact (h.fit x hx).timed
  · intro a ha
    obtain ⟨x, hx, rfl⟩ := List.mem_map.1 ha
    exact h.clock x hx
  · intro a ha
    obtain ⟨x, hx, rfl⟩ := List.mem_map.1 ha
    exact h.group x hx

/-- What the chain behind the node does, in terms of what comes to the node. -/
theorem late_chain {rd : Reader} (hrd : rd.Accurate) {d : Int} (hd : 0 < d) (hdm : d % 1000 = 0) (hd1 : d < 360000000000)
    {sid out : String} (hne : sid ≠ out) {cfg : Seq.Cfg} {g : Option String} (evs : List DEv) (xs : List Carried) (hxs : xs = carried evs)
    (m : Media) (h : Course d sid cfg g m.base xs) (hcop : ∀ x ∈ xs, Copies (x.late rd d)) (discard : Bool) (start len : Int) (hl : 0 < len)
    (hms : start % 1000 = 0 ∧ len % 1000 = 0) (hmrd : m.rd.Accurate) (hz0 : 0 ≤ m.zero) (hzms : m.base = .clock → m.zero % 1000 = 0)
    (hz : m.base = .clock → m.zero ≤ start) (fin : Int) (hfin : fin = start + timerCalls evs * len) (htop : fin < 100 * 3600000000)
    (run : List DEv → Timed RState (List (Option (Node Att))) × List (RSeg (Option SDoc)))
    (hrun : run = fun es => runTR (extract (sourceOf (fun x => x.late rd d) xs) discard) (toEncoder m) len ⟨{ lastEnd := start }, [], true⟩
      (behindDelay rd out d {} es)) :
    (run evs).1.on = true ∧ (run evs).1.down.length = timerCalls evs ∧
    ∀ u, 0 ≤ u →
      (start ≤ u + m.shift ∧ u + m.shift < fin →
        ∃ k, evs[k]? = some .tick ∧ carried (evs.take k) ≠ [] ∧ start + timerCalls (evs.take k) * len ≤ u + m.shift ∧
          u + m.shift < start + timerCalls (evs.take k) * len + len ∧
          (∀ x ∈ xs, Seq.Newest ((carried (evs.take k)).map (fun x => x.near d)) (u + m.shift - d) (x.near d) →
            Seq.EndsAfter (x.near d) (u + m.shift - d) → readOf (run evs).1.down u = linesIn (x.early d) (u + m.shift - d)) ∧
          ((∀ x ∈ xs, Seq.Newest ((carried (evs.take k)).map (fun x => x.near d)) (u + m.shift - d) (x.near d) →
            ¬ Seq.EndsAfter (x.near d) (u + m.shift - d)) → readOf (run evs).1.down u = [])) ∧
      (¬(start ≤ u + m.shift ∧ u + m.shift < fin) → readOf (run evs).1.down u = []) := by
  subst hxs
  subst hrun
  obtain ⟨hmap, hdel, hin⟩ := course_behind hrd hd hdm hd1 hne h
  have hticks : ∀ es, Course d sid cfg g m.base (carried es) → ticksAfterFirst (behindDelay rd out d {} es) = timerCalls es := by
    intro es hes
    rw [(course_behind hrd hd hdm hd1 hne hes).1, ticks_relay]
  have hdocs : ∀ a ∈ deliveries (behindDelay rd out d {} evs),
      (sourceOf (fun x => x.late rd d) (carried evs) a).Sound a fin ∧ lined true (sourceOf (fun x => x.late rd d) (carried evs) a).root = true ∧
      flat (sourceOf (fun x => x.late rd d) (carried evs) a).root = true ∧ (sourceOf (fun x => x.late rd d) (carried evs) a).base = m.base := by
    intro a ha
    rw [hdel] at ha
    obtain ⟨b, hb, rfl⟩ := List.mem_map.1 ha
    obtain ⟨x, hx, rfl⟩ := List.mem_map.1 hb
    rw [sourceOf_held h.newer hx rfl]
    obtain ⟨h1, h2, h3⟩ := (late_facts hrd hd hdm hd1 (h.fit x hx) (out := out) (h.sid x hx)).2.2.2 fin (fit_base (h.fit x hx) htop) (hcop x hx)
    exact ⟨h1, h2, h3, (h.fit x hx).base⟩
  obtain ⟨h1, h2, h3⟩ := C101_chain_partial (src := sourceOf (fun x => x.late rd d) (carried evs)) (discard := discard) hl hms
    (behindDelay rd out d {} evs) hin m hmrd hz0 hzms hz fin (by rw [hticks evs h]; exact hfin) htop hdocs _ rfl
  refine ⟨h1, by rw [← hticks evs h]; exact h2, fun u hu => ?_⟩
  obtain ⟨g1, g2⟩ := h3 u hu
  refine ⟨fun hr => ?_, g2⟩
  obtain ⟨k, st, hk, hsome, hst, hle, hlo, hhi, hread, hnone⟩ := g1 hr
  have htake : (behindDelay rd out d {} evs).take k = behindDelay rd out d {} (evs.take k) := by
    rw [hmap, (course_behind hrd hd hdm hd1 hne (h.take k)).1, List.map_take]
  have hdelk := (course_behind hrd hd hdm hd1 hne (h.take k)).2.1
  rw [htake] at hsome hle hread hnone
  rw [hticks _ (h.take k)] at hle
  rw [hdelk] at hsome hread hnone
  have hsub : ∀ x ∈ carried (evs.take k), x ∈ carried evs := by
    intro x hx
    obtain ⟨rest, hrest⟩ := carried_take evs k
    rw [hrest]
    exact List.mem_append_left _ hx
  refine ⟨k, relay_tick (hmap ▸ hk), ?_, by omega, by omega, ?_, ?_⟩
  · intro he
    rw [he] at hsome
    exact hsome rfl
  · intro x hx hnew hend
    have hnew' := newest_mv (swap sid out) d hnew
    rw [Int.sub_add_cancel] at hnew'
    have hend' := (endsAfter_mv (swap sid out) d (x.near d) (u + m.shift - d)).2 hend
    rw [Int.sub_add_cancel] at hend'
    have := hread _ hnew' hend'
    rw [sourceOf_held h.newer hx rfl] at this
    have hmoved := (late_facts hrd hd hdm hd1 (h.fit x hx) (out := out) (h.sid x hx)).2.2.1 (u + m.shift - d)
    rw [Int.sub_add_cancel] at hmoved
    rw [← hmoved]
    exact this
  · intro hall
    apply hnone
    intro b hb hend
    have hb' : Seq.Newest (((carried (evs.take k)).map (fun x => x.near d)).map (Seq.Doc.mv (swap sid out) d)) (u + m.shift - d + d) b := by
      rw [Int.sub_add_cancel]; exact hb
    obtain ⟨a, rfl, hnew⟩ := newest_of_mv (swap sid out) d hb'
    obtain ⟨x, hx, rfl⟩ := List.mem_map.1 hnew.1
    refine hall x (hsub x hx) hnew ((endsAfter_mv (swap sid out) d (x.near d) (u + m.shift - d)).1 ?_)
    rw [Int.sub_add_cancel]
    exact hend

/-- The last begun of documents in sequence order is the newest begun. -/
theorem newest_near {d t : Int} {xs pre post : List Carried} {x : Carried} (hn : xs.Pairwise (fun a b => a.doc.num < b.doc.num))
    (hs : xs = pre ++ x :: post) (hb : x.begins d ≤ t) (hpost : ∀ y ∈ post, t < y.begins d) :
    Seq.Newest (xs.map (fun x => x.near d)) t (x.near d) ∧
    ∀ y ∈ xs, Seq.Newest (xs.map (fun x => x.near d)) t (y.near d) → y = x := by
  have hmem : x ∈ xs := by rw [hs]; simp
  have hnew : Seq.Newest (xs.map (fun x => x.near d)) t (x.near d) := by
    refine ⟨List.mem_map.2 ⟨x, hmem, rfl⟩, hb, ?_⟩
    intro a ha hat
    obtain ⟨y, hy, rfl⟩ := List.mem_map.1 ha
    rw [hs] at hy hn
    rw [List.pairwise_append] at hn
    rcases List.mem_append.1 hy with hy | hy
    · exact Nat.le_of_lt (hn.2.2 y hy x (by simp))
    · rcases List.mem_cons.1 hy with rfl | hy
      · exact Nat.le_refl _
      · have := hpost y hy
        unfold Carried.begins at this
        omega
  refine ⟨hnew, ?_⟩
  intro y hy hynew
  have h1 := hynew.2.2 _ hnew.1 hnew.2.1
  have h2 := hnew.2.2 _ hynew.1 hynew.2.1
  rw [near_num, near_num] at h1 h2
  apply Classical.byContradiction
  intro hne
  have := (List.pairwise_iff_getElem.1 hn)
  obtain ⟨i, hi, rfl⟩ := List.mem_iff_getElem.1 hy
  obtain ⟨j, hj, rfl⟩ := List.mem_iff_getElem.1 hmem
  have hij : i ≠ j := by
    rintro rfl
    exact hne rfl
  rcases Nat.lt_or_gt_of_ne hij with hlt | hlt
  · have := this i j hi hj hlt
    omega
  · have := this j i hj hi hlt
    omega

/-- **C104**  The documents of a sequence, each newer than those before, and messages come to a retiming delay node at any moments; behind it a
resequencer with its timer hands its segments to the EBU-TT-D encoder.  The timer never stops, there is a converted document for each call of
it after the first document, and of the converted documents is read, at every media time they cover, what somebody reads the delay earlier
of the last document that had begun then, of those that had come before the segment with that media time was made, until it ends.  Here the documents
are taken with the times they have for somebody who got them the delay earlier, from where the delay node gets them. -/
theorem C104_read_later_partial (rd : Reader) (hrd : rd.Accurate) (d : Int) (hd : 0 < d) (hdm : d % 1000 = 0) (hd1 : d < 360000000000)
    (sid out : String) (hne : sid ≠ out) (cfg : Seq.Cfg) (g : Option String) (evs : List DEv) (xs : List Carried) (hxs : xs = carried evs)
    (m : Media) (h : Course d sid cfg g m.base xs) (hcop : ∀ x ∈ xs, Copies (x.late rd d)) (discard : Bool) (start len : Int) (hl : 0 < len)
    (hms : start % 1000 = 0 ∧ len % 1000 = 0) (hmrd : m.rd.Accurate) (hz0 : 0 ≤ m.zero) (hzms : m.base = .clock → m.zero % 1000 = 0)
    (hz : m.base = .clock → m.zero ≤ start) (fin : Int) (hfin : fin = start + timerCalls evs * len) (htop : fin < 100 * 3600000000)
    (run : List DEv → Timed RState (List (Option (Node Att))) × List (RSeg (Option SDoc)))
    (hrun : run = fun es => runTR (extract (sourceOf (fun x => x.late rd d) xs) discard) (toEncoder m) len ⟨{ lastEnd := start }, [], true⟩
      (behindDelay rd out d {} es)) :
    (run evs).1.on = true ∧ (run evs).1.down.length = timerCalls evs ∧
    ∀ u t, 0 ≤ u → t = u + m.shift →
      (start ≤ t ∧ t < fin →
        ∃ k, evs[k]? = some .tick ∧ carried (evs.take k) ≠ [] ∧ start + timerCalls (evs.take k) * len ≤ t ∧
          t < start + timerCalls (evs.take k) * len + len ∧
          (∀ (pre : List Carried) (x : Carried) (post : List Carried), carried (evs.take k) = pre ++ x :: post → x.begins d ≤ t - d → (∀ y ∈ post, t - d < y.begins d) →
            readOf (run evs).1.down u = if ∀ e, x.ends d = some e → t - d < e then linesIn (x.early d) (t - d) else []) ∧
          ((∀ x ∈ carried (evs.take k), t - d < x.begins d) → readOf (run evs).1.down u = [])) ∧
      (¬(start ≤ t ∧ t < fin) → readOf (run evs).1.down u = []) := by
  obtain ⟨h1, h2, h3⟩ := late_chain hrd hd hdm hd1 hne evs xs hxs m h hcop discard start len hl hms hmrd hz0 hzms hz fin hfin htop run hrun
  refine ⟨h1, h2, fun u t hu ht => ?_⟩
  subst ht
  obtain ⟨g1, g2⟩ := h3 u hu
  refine ⟨fun hr => ?_, g2⟩
  obtain ⟨k, hk, hsome, hlo, hhi, hread, hnone⟩ := g1 hr
  obtain ⟨rest, hrest⟩ := carried_take evs k
  have hck : Course d sid cfg g m.base (carried (evs.take k)) := (hxs ▸ h).take k
  refine ⟨k, hk, hsome, hlo, hhi, ?_, ?_⟩
  · intro pre x post hs hb hpost
    have hx : x ∈ xs := by rw [hxs, hrest, hs]; simp
    obtain ⟨hnew, huniq⟩ := newest_near hck.newer hs hb hpost
    by_cases he : ∀ e, x.ends d = some e → u + m.shift - d < e
    · rw [if_pos he]
      exact hread x hx hnew he
    · rw [if_neg he]
      apply hnone
      intro y _ hy
      obtain ⟨z, hz, hzy⟩ := List.mem_map.1 hy.1
      have hz' : z = x := huniq z hz (by rw [hzy]; exact hy)
      rw [← hzy, hz']
      exact he
  · intro hall
    apply hnone
    intro y _ hy _
    obtain ⟨z, hz, hzy⟩ := List.mem_map.1 hy.1
    have h5 := hall z hz
    have h6 := hy.2.1
    rw [← hzy] at h6
    unfold Carried.begins at h5
    omega

/-- **C104**  Two such chains side by side, one behind the delay node and one in front of it, in which everything happens the delay earlier: the same
documents and messages come, the timers are called as often between them, and the first window begins the delay earlier.  Both put out equally
many documents, and whatever is read of those in front at a media time is read of those behind the delay later; before that nothing is read of them. -/
theorem C104_delayed_partial (rd : Reader) (hrd : rd.Accurate) (d : Int) (hd : 0 < d) (hdm : d % 1000 = 0) (hd1 : d < 360000000000)
    (sid out : String) (hne : sid ≠ out) (cfg : Seq.Cfg) (g : Option String) (evs : List DEv) (xs : List Carried) (hxs : xs = carried evs)
    (m : Media) (h : Course d sid cfg g m.base xs) (hcop : ∀ x ∈ xs, Copies (x.late rd d) ∧ Copies (x.early d))
    (discard : Bool) (start len : Int) (hl : 0 < len) (hms : start % 1000 = 0 ∧ len % 1000 = 0) (hmrd : m.rd.Accurate) (hz0 : 0 ≤ m.zero)
    (hzms : m.base = .clock → m.zero % 1000 = 0) (hz : m.shift ≤ start) (htop : start + d + timerCalls evs * len < 100 * 3600000000)
    (near far : Timed RState (List (Option (Node Att))) × List (RSeg (Option SDoc)))
    (hnear : near = runTR (extract (sourceOf (fun x => x.early d) xs) discard) (toEncoder m) len ⟨{ lastEnd := start }, [], true⟩ (without d evs))
    (hfar : far = runTR (extract (sourceOf (fun x => x.late rd d) xs) discard) (toEncoder m) len ⟨{ lastEnd := start + d }, [], true⟩
      (behindDelay rd out d {} evs)) :
    near.1.on = true ∧ far.1.on = true ∧ far.1.down.length = near.1.down.length ∧
    (∀ u, 0 ≤ u → readOf far.1.down (u + d) = readOf near.1.down u) ∧
    ∀ u, 0 ≤ u → u < d → readOf far.1.down u = [] := by
  have hz' : m.base = .clock → m.zero ≤ start := by
    intro hb
    unfold Media.shift at hz
    rw [hb] at hz
    exact hz
  obtain ⟨f1, f2, f3⟩ := late_chain hrd hd hdm hd1 hne evs xs hxs m h (fun x hx => (hcop x hx).1) discard (start + d) len hl
    ⟨by omega, hms.2⟩ hmrd hz0 hzms (fun hb => by have := hz' hb; omega) (start + d + timerCalls evs * len) rfl htop _ rfl
  rw [← hfar] at f1 f2
  subst hxs
  obtain ⟨hdel, hin⟩ := course_without h
  have hticks : ∀ es, ticksAfterFirst (without d es) = timerCalls es := by
    intro es
    rw [without_map, ticks_relay]
  have hdocs : ∀ a ∈ deliveries (without d evs),
      (sourceOf (fun x => x.early d) (carried evs) a).Sound a (start + timerCalls evs * len) ∧
      lined true (sourceOf (fun x => x.early d) (carried evs) a).root = true ∧
      flat (sourceOf (fun x => x.early d) (carried evs) a).root = true ∧ (sourceOf (fun x => x.early d) (carried evs) a).base = m.base := by
    intro a ha
    rw [hdel] at ha
    obtain ⟨x, hx, rfl⟩ := List.mem_map.1 ha
    rw [sourceOf_held h.newer hx rfl]
    exact ⟨early_facts hdm (h.fit x hx) _ (fit_base (h.fit x hx) (by omega)) (hcop x hx).2, (h.fit x hx).lined, (h.fit x hx).flat, (h.fit x hx).base⟩
  obtain ⟨n1, n2, n3⟩ := C101_chain_partial (src := sourceOf (fun x => x.early d) (carried evs)) (discard := discard) hl hms
    (without d evs) hin m hmrd hz0 hzms hz' (start + timerCalls evs * len) (by rw [hticks]) (by omega) hdocs near hnear
  refine ⟨n1, f1, by rw [f2, n2, hticks], fun u hu => ?_, fun u hu hud => ?_⟩
  · obtain ⟨a1, a2⟩ := n3 u hu
    obtain ⟨b1, b2⟩ := f3 (u + d) (by omega)
    rw [← hfar] at b1 b2
    by_cases hr : start ≤ u + m.shift ∧ u + m.shift < start + timerCalls evs * len
    · obtain ⟨k, st, hk, hsome, hst, hle, hlo, hhi, hread, hnone⟩ := a1 hr
      obtain ⟨k', hk', hsome', hlo', hhi', hread', hnone'⟩ := b1 (by omega)
      have htake : (without d evs).take k = without d (evs.take k) := by rw [without_map, without_map, List.map_take]
      rw [htake] at hsome hle hread hnone
      rw [hticks] at hle
      rw [(course_without (h.take k)).1] at hsome hread hnone
      rw [without_map] at hk
      have hkk : k = k' := same_call (start := start) (t := u + m.shift) hl (relay_tick hk) hk' (fun he => hsome (by rw [he]; rfl)) hsome'
        (by omega) (by omega) (by omega) (by omega)
      subst hkk
      have ht : u + d + m.shift - d = u + m.shift := by omega
      rw [ht] at hread' hnone'
      by_cases hex : ∃ x ∈ carried evs, Seq.Newest ((carried (evs.take k)).map (fun x => x.near d)) (u + m.shift) (x.near d) ∧
          Seq.EndsAfter (x.near d) (u + m.shift)
      · obtain ⟨x, hx, hnew, hend⟩ := hex
        rw [hread' x hx hnew hend, hread _ hnew hend, sourceOf_held h.newer hx rfl]
      · rw [hnone' (fun x hx hnew hend => hex ⟨x, hx, hnew, hend⟩), hnone]
        intro a hnew hend
        obtain ⟨x, hx, rfl⟩ := List.mem_map.1 hnew.1
        obtain ⟨rest, hrest⟩ := carried_take evs k
        exact hex ⟨x, by rw [hrest]; exact List.mem_append_left _ hx, hnew, hend⟩
    · rw [a2 hr, b2 (by omega)]
  · have := (f3 u hu).2 (by omega)
    rw [← hfar] at this
    exact this

/-! ### Example: a delay of two seconds -/

/-- Document `n`, from `b` to `e` seconds, with two lines, delivered at 2.1 s. -/
def exCarried (n : Nat) (b e : Nat) (one two : String) : Carried :=
  { doc := ⟨"a", n, .clock, exTwoLines b e one two⟩, uid := n, clockMode := some "local", agid := none, avail := 2100000, rd := exactReader
    ref := fun _ x => some x, styles := fun _ => none, regions := fun _ => none }

/-- A timer call before anything came, a document, a segment, a message, the next document, two more segments. -/
def exDelayed : List DEv :=
  [.tick, .deliver (exCarried 1 1 9 "a" "b"), .tick, .msg "hello", .deliver (exCarried 4 5 8 "c" "d"), .tick, .tick]

theorem exCopies (x : Carried) (hx : x.ref = fun _ n => some n) (body : Node Att) (avail : Int) : Copies (x.source body avail) := by
  intro _ _ _ _ _ _ _ _ _ _
  simp only [Carried.source, hx]
  exact ⟨fun _ _ => rfl, fun _ _ _ => rfl⟩

theorem exCourse : Course 2000000 "a" ⟨"a", "clock", some "local"⟩ none exHalf.base (carried exDelayed) := by
  have hc : carried exDelayed = [exCarried 1 1 9 "a" "b", exCarried 4 5 8 "c" "d"] := rfl
  rw [hc]
  have t1 : (exCarried 1 1 9 "a" "b").begins 2000000 = 1000000 ∧ (exCarried 1 1 9 "a" "b").ends 2000000 = some 9000000 := by decide +kernel
  have t2 : (exCarried 4 5 8 "c" "d").begins 2000000 = 5000000 ∧ (exCarried 4 5 8 "c" "d").ends 2000000 = some 8000000 := by decide +kernel
  refine ⟨by decide, ?_, ?_, ?_, ?_⟩
  · intro x hx
    simp only [List.mem_cons, List.not_mem_nil, or_false] at hx
    rcases hx with rfl | rfl <;> rfl
  · intro x hx
    simp only [List.mem_cons, List.not_mem_nil, or_false] at hx
    rcases hx with rfl | rfl <;> rfl
  · intro x hx
    simp only [List.mem_cons, List.not_mem_nil, or_false] at hx
    rcases hx with rfl | rfl <;> rfl
  · intro x hx
    simp only [List.mem_cons, List.not_mem_nil, or_false] at hx
    rcases hx with rfl | rfl
    · refine ⟨⟨by decide, _, _, rfl, rfl, by decide, by decide +kernel, .inl rfl⟩, ?_, exactReader_accurate, by decide,
        sane_of rfl (by decide) (by decide), by decide, by decide, by decide, rfl⟩
      unfold Carried.begins Carried.ends at t1
      exact ⟨by rw [t1.1]; omega, by intro e he; rw [t1.2, Option.some.injEq] at he; rw [t1.1]; omega⟩
    · refine ⟨⟨by decide, _, _, rfl, rfl, by decide, by decide +kernel, .inl rfl⟩, ?_, exactReader_accurate, by decide,
        sane_of rfl (by decide) (by decide), by decide, by decide, by decide, rfl⟩
      unfold Carried.begins Carried.ends at t2
      exact ⟨by rw [t2.1]; omega, by intro e he; rw [t2.2, Option.some.injEq] at he; rw [t2.1]; omega⟩

/-- The hypotheses of `C104_read_later_partial` and `C104_delayed_partial` hold with a delay of two seconds.  In front of the node the first document's lines are
read from 1 s on and the second's from 5 s to 8 s, media time zero being at half a second, and behind it two seconds later. -/
example : Course 2000000 "a" ⟨"a", "clock", some "local"⟩ none exHalf.base (carried exDelayed) ∧
    (∀ x ∈ carried exDelayed, Copies (x.late exactReader 2000000) ∧ Copies (x.early 2000000)) ∧ exHalf.shift ≤ 1000000 ∧ timerCalls exDelayed = 3 ∧
    [499999, 500000, 4499999, 4500000, 7499999, 7500000].map (readOf
        (runTR (extract (sourceOf (fun x => x.early 2000000) (carried exDelayed)) true) (toEncoder exHalf) 3000000
          ⟨{ lastEnd := 1000000 }, [], true⟩ (without 2000000 exDelayed)).1.down) =
      [[], [[.text ['a'], .br, .text ['b']]], [[.text ['a'], .br, .text ['b']]], [[.text ['c'], .br, .text ['d']]],
        [[.text ['c'], .br, .text ['d']]], []] ∧
    [2499999, 2500000, 6499999, 6500000, 9499999, 9500000].map (readOf
        (runTR (extract (sourceOf (fun x => x.late exactReader 2000000) (carried exDelayed)) true) (toEncoder exHalf) 3000000
          ⟨{ lastEnd := 3000000 }, [], true⟩ (behindDelay exactReader "b" 2000000 {} exDelayed)).1.down) =
      [[], [[.text ['a'], .br, .text ['b']]], [[.text ['a'], .br, .text ['b']]], [[.text ['c'], .br, .text ['d']]],
        [[.text ['c'], .br, .text ['d']]], []] := by
  refine ⟨exCourse, ?_, by decide, by decide, ?_, ?_⟩
  · have hc : carried exDelayed = [exCarried 1 1 9 "a" "b", exCarried 4 5 8 "c" "d"] := rfl
    rw [hc]
    intro x hx
    simp only [List.mem_cons, List.not_mem_nil, or_false] at hx
    rcases hx with rfl | rfl <;> exact ⟨exCopies _ rfl _ _, exCopies _ rfl _ _⟩
  · decide +kernel
  · decide +kernel

end Verif.Convert
