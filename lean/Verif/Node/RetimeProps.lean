import Verif.Node.Retime
import Verif.Node.ProducerProps

/-! C37: retiming moves every computed time by the delay. -/
namespace Verif.Node

open Verif.Doc (Node Att TV Comp Lab times timesL comps compsL timedKids compOf ownEnd below eff badly Leaf)
open Verif.Time (TimeBase Reader)

/-! ### Specification -/

/-- Times moved by `d`. -/
def Comp.moved (d : Int) (c : Comp) : Comp := ⟨c.b + d, c.e.map (· + d)⟩

mutual
/-- Everything of a document but its begin and end attributes. -/
def untimed : Node Att → Node Att
  | .text s => .text s
  | .br => .br
  | .elem a kids => .elem { a with beg := none, fin := none } (untimedL kids)
def untimedL : List (Node Att) → List (Node Att)
  | [] => []
  | k :: ks => untimed k :: untimedL ks
end

/-- What is assumed of an element: begin and end are whole milliseconds, not negative, and with the delay
below 100 hours; if it has both the begin is earlier and its text sorts earlier; an end is not zero and, unless
the element is a leaf, neither is a begin; a container has an element inside. -/
def movable (d : Int) (a : Att) (kids : List (Node Att)) : Bool :=
  [a.beg, a.fin].all (fun o => o.all (fun v => decide (v.delta % 1000 = 0 ∧ 0 ≤ v.delta ∧ v.delta + d < 360000000000))) &&
  !badly a && (match a.beg, a.fin with
    | some b, some e => decide (b.delta < e.delta)
    | _, _ => true) &&
  a.fin.all (fun v => decide (v.delta ≠ 0)) && (a.beg.all (fun v => decide (v.delta ≠ 0)) || Leaf Att.kind a kids) &&
  (Leaf Att.kind a kids || kids.any (fun k => match k with
    | .elem _ _ => true
    | _ => false))

mutual
/-- The same for all elements. -/
def movableIn (d : Int) : Node Att → Bool
  | .elem a kids => movable d a kids && movableInL d kids
  | _ => true
def movableInL (d : Int) : List (Node Att) → Bool
  | [] => true
  | k :: ks => movableIn d k && movableInL d ks
end

/-! ### The retimed tree without the formats -/

/-- An attribute moved. -/
def mvTV (d : Int) (v : TV) : TV := ⟨Time.writeFull (v.delta + d), v.delta + d⟩

mutual
def mv (d : Int) : Node Att → Node Att
  | .text s => .text s
  | .br => .br
  | .elem a kids =>
    match a.beg with
    | some b => .elem { a with beg := some (mvTV d b), fin := a.fin.map (mvTV d) } kids
    | none => .elem { a with fin := a.fin.map (mvTV d) } (mvL d kids)
def mvL (d : Int) : List (Node Att) → List (Node Att)
  | [] => []
  | k :: ks => mv d k :: mvL d ks
end

theorem toMs_self {t : Int} (h : t % 1000 = 0) : Time.toMs t = t := by unfold Time.toMs; omega

theorem stamp_eq {base : TimeBase} {rd : Reader} (hrd : rd.Accurate) (hb : base ≠ .smpte) {t : Int} (h0 : 0 ≤ t)
    (hm : t % 1000 = 0) (h1 : t < 360000000000) : stamp base rd t = some ⟨Time.writeFull t, t⟩ := by
  cases base with
  | smpte => exact absurd rfl hb
  | clock =>
    obtain ⟨text, hw, hl⟩ := limitedClock_some rd hrd t h0 h1
    rw [stamp, hl, toMs_self hm]
    unfold Time.writeLimited at hw
    split at hw
    · simp at hw
    · injection hw with hw; rw [hw]
  | media =>
    simp [stamp, (Time.C19_full_clock_round_trip rd hrd t h0).1, toMs_self hm]

theorem shiftTV_eq {base : TimeBase} {rd : Reader} (hrd : rd.Accurate) (hb : base ≠ .smpte) {d : Int} (hd : 0 ≤ d)
    (hdm : d % 1000 = 0) {v : TV} (h0 : 0 ≤ v.delta) (hm : v.delta % 1000 = 0) (h1 : v.delta + d < 360000000000) :
    shiftTV base rd d v = some (mvTV d v) := by
  have hs : stamp base rd d = some ⟨Time.writeFull d, d⟩ := stamp_eq hrd hb hd hdm (by omega)
  have hs' : stamp base rd (v.delta + d) = some ⟨Time.writeFull (v.delta + d), v.delta + d⟩ :=
    stamp_eq hrd hb (by omega) (by omega) h1
  cases base with
  | smpte => exact absurd rfl hb
  | clock => simp [shiftTV, hs, hs', mvTV]
  | media => simp [shiftTV, hs, hs', mvTV]

theorem movable_parts {d : Int} {a : Att} {kids : List (Node Att)} (h : movable d a kids = true) :
    (∀ v, a.beg = some v ∨ a.fin = some v → v.delta % 1000 = 0 ∧ 0 ≤ v.delta ∧ v.delta + d < 360000000000) ∧
    badly a = false ∧ (∀ b e, a.beg = some b → a.fin = some e → b.delta < e.delta) ∧
    (∀ v, a.fin = some v → v.delta ≠ 0) ∧ ((∀ v, a.beg = some v → v.delta ≠ 0) ∨ Leaf Att.kind a kids = true) ∧
    (Leaf Att.kind a kids = true ∨ ∃ x ks, Node.elem x ks ∈ kids) := by
  unfold movable at h
  simp only [Bool.and_eq_true, List.all_cons, List.all_nil, and_true, Bool.or_eq_true, Bool.not_eq_true'] at h
  obtain ⟨⟨⟨⟨⟨h1, h2⟩, h3⟩, h4⟩, h5⟩, h6⟩ := h
  refine ⟨?_, h2, ?_, ?_, ?_, ?_⟩
  · intro v hv
    rcases hv with hv | hv
    · have := h1.1; rw [hv] at this; simpa using this
    · have := h1.2; rw [hv] at this; simpa using this
  · intro b e hb he
    rw [hb, he] at h3
    simpa using h3
  · intro v hv
    rw [hv] at h4
    simpa using h4
  · refine h5.imp ?_ id
    intro h5 v hv
    rw [hv] at h5
    simpa using h5
  · refine h6.imp id ?_
    intro h6
    rw [List.any_eq_true] at h6
    obtain ⟨k, hk, hk'⟩ := h6
    cases k with
    | elem x ks => exact ⟨x, ks, hk⟩
    | text s => simp at hk'
    | br => simp at hk'

mutual
theorem retime_eq {base : TimeBase} {rd : Reader} (hrd : rd.Accurate) (hb : base ≠ .smpte) {d : Int} (hd : 0 ≤ d)
    (hdm : d % 1000 = 0) : ∀ (n : Node Att), movableIn d n = true → retime base rd d n = some (mv d n)
  | .text s, _ => rfl
  | .br, _ => rfl
  | .elem a kids, h => by
    rw [movableIn, Bool.and_eq_true] at h
    obtain ⟨h1, _⟩ := movable_parts h.1
    have hfin : shiftOpt base rd d a.fin = some (a.fin.map (mvTV d)) := by
      cases hf : a.fin with
      | none => rfl
      | some v =>
        obtain ⟨m1, m2, m3⟩ := h1 v (.inr hf)
        rw [shiftOpt, shiftTV_eq hrd hb hd hdm m2 m1 m3]; rfl
    rw [retime, mv, hfin]
    cases hbeg : a.beg with
    | none => simp [retimeL_eq hrd hb hd hdm kids h.2]
    | some v =>
      obtain ⟨m1, m2, m3⟩ := h1 v (.inl hbeg)
      simp [shiftTV_eq hrd hb hd hdm m2 m1 m3]
theorem retimeL_eq {base : TimeBase} {rd : Reader} (hrd : rd.Accurate) (hb : base ≠ .smpte) {d : Int} (hd : 0 ≤ d)
    (hdm : d % 1000 = 0) : ∀ (ns : List (Node Att)), movableInL d ns = true → retimeL base rd d ns = some (mvL d ns)
  | [], _ => rfl
  | k :: ks, h => by
    rw [movableInL, Bool.and_eq_true] at h
    rw [retimeL, mvL, retime_eq hrd hb hd hdm k h.1, Option.bind_some, retimeL_eq hrd hb hd hdm ks h.2, Option.map_some]
end

/-! ### Moving computed times -/

theorem maxEnd_moved (d : Int) : ∀ (ks : List Comp), Doc.maxEnd (ks.map (Comp.moved d)) = (Doc.maxEnd ks).map (· + d)
  | [] => rfl
  | [k] => rfl
  | k :: k' :: ks => by
    have ih := maxEnd_moved d (k' :: ks)
    rw [List.map_cons]
    have e1 : ∀ (x : Comp) (l : List Comp), l ≠ [] → Doc.maxEnd (x :: l) =
        (match x.e, Doc.maxEnd l with
          | some a, some b => some (max a b)
          | _, _ => none) := by
      intro x l hl
      cases l with
      | nil => exact absurd rfl hl
      | cons y l => rfl
    rw [e1 _ _ (by simp), e1 k _ (by simp), ih]
    cases hk : k.e <;> cases Doc.maxEnd (k' :: ks) <;> simp [Comp.moved, hk]

theorem minBegin_moved (d : Int) (k : Comp) (ks : List Comp) :
    Doc.minBegin (Comp.moved d k) (ks.map (Comp.moved d)) = Doc.minBegin k ks + d := by
  unfold Doc.minBegin
  have : ∀ (ks : List Comp) (m : Int),
      (ks.map (Comp.moved d)).foldl (fun m x => min m x.b) (m + d) = ks.foldl (fun m x => min m x.b) m + d := by
    intro ks
    induction ks with
    | nil => intro m; rfl
    | cons k ks ih =>
      intro m
      rw [List.map_cons, List.foldl_cons, List.foldl_cons, ← ih]
      congr 1
      simp only [Comp.moved]
      omega
  exact this ks k.b

theorem postBegin_moved (d cb : Int) (ks : List Comp) :
    Doc.postBegin (cb + d) (ks.map (Comp.moved d)) = Doc.postBegin cb ks + d := by
  cases ks with
  | nil => rfl
  | cons k ks =>
    simp only [List.map_cons, Doc.postBegin, minBegin_moved]
    split <;> split <;> omega

/-- The begin of a container with children that begin no earlier than the bound. -/
theorem postBegin_min {cb : Int} {k : Comp} {ks : List Comp} (h : ∀ c ∈ k :: ks, cb ≤ c.b) :
    Doc.postBegin cb (k :: ks) = Doc.minBegin k ks := by
  obtain ⟨⟨c, hc, he⟩, _⟩ := Doc.minBegin_spec ks k
  have := h c hc
  simp only [Doc.postBegin]
  split <;> omega

/-- The begin bound before and after. -/
def held (avail d : Int) : Int := max (avail - d) 0

theorem atAvail {avail d x : Int} (hd : 0 ≤ d) (hx : 0 ≤ x) :
    (if avail ≠ 0 then max (x + d) avail else x + d) =
      (if held avail d ≠ 0 then max x (held avail d) else x) + d := by
  unfold held
  split <;> split <;> omega

theorem ownEnd_moved {avail d sync : Int} {bound : Option Int} {a : Att} (hk : a.kind ≠ .body) :
    ownEnd avail (sync + d) (bound.map (· + d)) a = (ownEnd (held avail d) sync bound a).map (· + d) := by
  unfold ownEnd Doc.preEnd Doc.baseEnd
  cases hkk : a.kind with
  | body => exact absurd hkk hk
  | _ => cases eff a.fin <;> cases bound <;> simp <;> omega

/-- The computed times of an element that is not excluded. -/
theorem compOf_any {avail sync : Int} {bound : Option Int} {a : Att} (h : badly a = false) (ks : List Comp) :
    compOf avail sync bound a ks =
      { b := if (eff a.beg).isNone then
            Doc.postBegin (if avail ≠ 0 then max (sync + (eff a.beg).getD 0) avail else sync + (eff a.beg).getD 0) ks
          else (if avail ≠ 0 then max (sync + (eff a.beg).getD 0) avail else sync + (eff a.beg).getD 0)
        e := below (ownEnd avail sync bound a) (match ks with
          | [] => bound
          | _ => Doc.maxEnd ks) } := by
  unfold compOf below
  simp only [h, Bool.false_eq_true, and_false, if_false]
  cases ks <;> rfl

theorem ends_moved (d : Int) (bound : Option Int) (ks : List Comp) :
    (match ks.map (Comp.moved d) with
      | [] => bound.map (· + d)
      | _ => Doc.maxEnd (ks.map (Comp.moved d))) =
    (match ks with
      | [] => bound
      | _ => Doc.maxEnd ks).map (· + d) := by
  cases ks with
  | nil => rfl
  | cons k ks => exact maxEnd_moved d (k :: ks)

theorem below_moved (d : Int) (a b : Option Int) : below (a.map (· + d)) (b.map (· + d)) = (below a b).map (· + d) := by
  cases a <;> rfl

/-- An element whose attributes stay, in surroundings that move. -/
theorem compOf_moved {avail d sync : Int} (hd : 0 ≤ d) {bound : Option Int} {a : Att} (hk : a.kind ≠ .body)
    (hbad : badly a = false) (hs : 0 ≤ sync + (eff a.beg).getD 0) (ks : List Comp) :
    compOf avail (sync + d) (bound.map (· + d)) a (ks.map (Comp.moved d)) =
      Comp.moved d (compOf (held avail d) sync bound a ks) := by
  rw [compOf_any hbad, compOf_any hbad, ownEnd_moved hk, ends_moved, below_moved]
  rw [show sync + d + (eff a.beg).getD 0 = (sync + (eff a.beg).getD 0) + d by omega, atAvail hd hs, postBegin_moved]
  unfold Comp.moved
  congr 1
  split <;> rfl

/-- The times of one element and of the elements in it move. -/
def Moves (d : Int) (x y : Node Lab) : Prop :=
  (match x, y with
    | .elem x _, .elem y _ => badly x.att = badly y.att ∧ x.comp = Comp.moved d y.comp
    | .elem _ _, _ => False
    | _, .elem _ _ => False
    | _, _ => True) ∧ comps x = (comps y).map (Comp.moved d)

theorem timedKids_moved {d : Int} : ∀ {xs ys : List (Node Lab)}, List.Forall₂ (Moves d) xs ys →
    timedKids xs = (timedKids ys).map (Comp.moved d) ∧ compsL xs = (compsL ys).map (Comp.moved d)
  | _, _, .nil => ⟨rfl, rfl⟩
  | x :: xs, y :: ys, .cons h hs => by
    obtain ⟨i1, i2⟩ := timedKids_moved hs
    constructor
    · cases x <;> cases y <;> simp only [Moves] at h <;> simp only [timedKids]
      · exact i1
      · exact i1
      · exact h.1.elim
      · exact i1
      · exact i1
      · exact h.1.elim
      · exact h.1.elim
      · exact h.1.elim
      · rw [h.1.1]
        split
        · exact i1
        · rw [List.map_cons, i1, h.1.2]
    · rw [compsL, compsL, List.map_append, h.2, i2]

theorem movable_beg {d : Int} {a : Att} {kids : List (Node Att)} (h : movable d a kids = true) : 0 ≤ (eff a.beg).getD 0 := by
  cases hb : a.beg with
  | none => simp [eff]
  | some v =>
    have := ((movable_parts h).1 v (.inl hb)).2.1
    simp only [eff]
    split
    · simp
    · simpa using this

mutual
/-- Content whose attributes stay moves with what is around it. -/
theorem times_moved {avail d : Int} (hd : 0 ≤ d) : ∀ (n : Node Att) (sync : Int) (bound : Option Int),
    0 ≤ sync → movableIn d n = true → Doc.shaped n = true → (∀ a ks, n = .elem a ks → a.kind ≠ .body) →
    Moves d (times avail (sync + d) (bound.map (· + d)) n) (times (held avail d) sync bound n)
  | .text s, _, _, _, _, _, _ => ⟨trivial, rfl⟩
  | .br, _, _, _, _, _, _ => ⟨trivial, rfl⟩
  | .elem a kids, sync, bound, hs, hm, hsh, hk => by
    rw [movableIn, Bool.and_eq_true] at hm
    rw [Doc.shaped, Bool.and_eq_true] at hsh
    have hka := hk a kids rfl
    have hbeg := movable_beg hm.1
    have hkids := timesL_moved (avail := avail) hd kids (sync + (eff a.beg).getD 0) (below (ownEnd (held avail d) sync bound a) bound)
      (by omega) hm.2 hsh.2 a.kind hsh.1
    obtain ⟨k1, k2⟩ := timedKids_moved hkids
    rw [times, times]
    rw [ownEnd_moved hka, below_moved, show sync + d + (eff a.beg).getD 0 = (sync + (eff a.beg).getD 0) + d by omega]
    refine ⟨⟨rfl, ?_⟩, ?_⟩
    · simp only
      rw [k1, compOf_moved hd hka (movable_parts hm.1).2.1 (by omega)]
    · simp only [comps, List.map_cons]
      rw [k1, compOf_moved hd hka (movable_parts hm.1).2.1 (by omega), k2]
theorem timesL_moved {avail d : Int} (hd : 0 ≤ d) : ∀ (ns : List (Node Att)) (sync : Int) (bound : Option Int),
    0 ≤ sync → movableInL d ns = true → Doc.shapedL ns = true → ∀ kd, ns.all (Doc.fits kd) = true →
    List.Forall₂ (Moves d) (timesL avail (sync + d) (bound.map (· + d)) ns) (timesL (held avail d) sync bound ns)
  | [], _, _, _, _, _, _, _ => .nil
  | k :: ks, sync, bound, hs, hm, hsh, kd, hf => by
    rw [movableInL, Bool.and_eq_true] at hm
    rw [Doc.shapedL, Bool.and_eq_true] at hsh
    rw [List.all_cons, Bool.and_eq_true] at hf
    refine .cons (times_moved hd k sync bound hs hm.1 hsh.1 ?_) (timesL_moved hd ks sync bound hs hm.2 hsh.2 kd hf.2)
    rintro a ks' rfl
    have := hf.1
    intro hb
    simp only [Doc.fits, hb] at this
    cases kd <;> simp at this
end

/-! ### Elements whose attributes move -/

/-- The attributes moved. -/
def mvAtt (d : Int) (a : Att) : Att := { a with beg := a.beg.map (mvTV d), fin := a.fin.map (mvTV d) }

theorem eff_mv {d : Int} (hd : 0 < d) {v : TV} (h0 : 0 ≤ v.delta) : eff (some (mvTV d v)) = some (v.delta + d) := by
  have : (mvTV d v).delta ≠ 0 := by simp only [mvTV]; omega
  rw [eff, if_neg this, mvTV]

theorem text_order {d : Int} {b e : TV} (hd : 0 ≤ d) (hdm : d % 1000 = 0)
    (hb : b.delta % 1000 = 0 ∧ 0 ≤ b.delta ∧ b.delta + d < 360000000000)
    (he : e.delta % 1000 = 0 ∧ 0 ≤ e.delta ∧ e.delta + d < 360000000000) (h : b.delta < e.delta) :
    (mvTV d b).text < (mvTV d e).text := by
  simp only [mvTV]
  exact ((Time.C22_text_order_is_time_order _ _ (by omega) (by omega) (by omega) (by omega)).1).mpr (by omega)

theorem badly_mv {d : Int} (hd : 0 ≤ d) (hdm : d % 1000 = 0) {a : Att} {kids : List (Node Att)} (h : movable d a kids = true) :
    badly (mvAtt d a) = false := by
  obtain ⟨h1, _, h3, _⟩ := movable_parts h
  unfold badly mvAtt
  cases hb : a.beg with
  | none => rfl
  | some b =>
    cases he : a.fin with
    | none => rfl
    | some e => simpa using text_order hd hdm (h1 b (.inl hb)) (h1 e (.inr he)) (h3 b e hb he)

theorem ownEnd_mv {avail d : Int} (hd : 0 < d) {bound : Option Int} {a : Att} {kids : List (Node Att)}
    (h : movable d a kids = true) (hdur : a.kind = .body → eff a.dur = none ∨ ∃ b, a.beg = some b ∧ b.delta ≠ 0) :
    ownEnd avail 0 (bound.map (· + d)) (mvAtt d a) = (ownEnd (held avail d) 0 bound a).map (· + d) := by
  obtain ⟨h1, _, _, h4, _⟩ := movable_parts h
  have hfin : eff (mvAtt d a).fin = (eff a.fin).map (· + d) := by
    cases he : a.fin with
    | none => simp [mvAtt, he, eff]
    | some e =>
      have := h1 e (.inr he)
      simp only [mvAtt, he, Option.map_some]
      rw [eff_mv hd this.2.1, eff, if_neg (h4 e he)]
      rfl
  have hplain : (match eff (mvAtt d a).fin with
      | none => none
      | some e => some (match (bound.map (· + d)).toList with
        | [] => 0 + e
        | t :: _ => min (0 + e) t)) = (match eff a.fin with
      | none => none
      | some e => some (match bound.toList with
        | [] => 0 + e
        | t :: _ => min (0 + e) t) : Option Int).map (· + d) := by
    rw [hfin]
    cases eff a.fin <;> cases bound <;> simp
  unfold ownEnd Doc.preEnd Doc.baseEnd
  rw [show (mvAtt d a).kind = a.kind from rfl, show (mvAtt d a).dur = a.dur from rfl]
  cases hk : a.kind with
  | body =>
    rcases hdur hk with hd0 | ⟨b, hb, hb0⟩
    · rw [hd0]; exact hplain
    · cases hdu : eff a.dur with
      | none => exact hplain
      | some du =>
        have h2 := h1 b (.inl hb)
        have hbeg : eff (mvAtt d a).beg = some (b.delta + d) := by
          simp only [mvAtt, hb, Option.map_some]; exact eff_mv hd h2.2.1
        have hbeg0 : eff a.beg = some b.delta := by rw [hb, eff, if_neg hb0]
        simp only
        rw [hbeg, hbeg0, hfin]
        cases eff a.fin <;> simp <;> omega
  | _ => exact hplain

theorem leaf_noElem {a : Att} {kids : List (Node Att)} (hl : Leaf Att.kind a kids = true)
    (hf : kids.all (Doc.fits a.kind) = true) : ∀ x ks, Node.elem x ks ∉ kids := by
  intro x ks hm
  unfold Leaf at hl
  simp only [Bool.and_eq_true, Bool.or_eq_true, decide_eq_true_eq, Bool.not_eq_true', List.any_eq_false] at hl
  have h1 := hl.2 _ hm
  have h2 := List.all_eq_true.mp hf _ hm
  simp only [Doc.isSpan, decide_eq_true_eq] at h1
  rcases hl.1 with h | h <;> simp [Doc.fits, h] at h2 <;> exact h1 h2

theorem noElem_timedKids {avail sync : Int} {bound : Option Int} : ∀ {kids : List (Node Att)},
    (∀ x ks, Node.elem x ks ∉ kids) → timedKids (timesL avail sync bound kids) = []
  | [], _ => rfl
  | .text s :: ks, h => by
    rw [timesL, times, timedKids]
    · exact noElem_timedKids (fun x l hm => h x l (List.mem_cons_of_mem _ hm))
    · simp
  | .br :: ks, h => by
    rw [timesL, times, timedKids]
    · exact noElem_timedKids (fun x l hm => h x l (List.mem_cons_of_mem _ hm))
    · simp
  | .elem x l :: ks, h => absurd List.mem_cons_self (h x l)

/-- Nothing begins before the document is available. -/
theorem kids_available {avail sync : Int} {bound : Option Int} (hs : 0 ≤ sync) {kids : List (Node Att)} {d : Int}
    (hm : movableInL d kids = true) :
    ∀ c ∈ timedKids (timesL avail sync bound kids), (if avail ≠ 0 then max 0 avail else 0) ≤ c.b := by
  induction kids with
  | nil => intro c hc; simp [timesL, timedKids] at hc
  | cons k ks ih =>
    rw [movableInL, Bool.and_eq_true] at hm
    intro c hc
    cases k with
    | text s => exact ih hm.2 c hc
    | br => exact ih hm.2 c hc
    | elem a kk =>
      rw [movableIn, Bool.and_eq_true] at hm
      have hbad := (movable_parts hm.1.1).2.1
      rw [timesL, times, timedKids, if_neg (by simp [hbad])] at hc
      rcases List.mem_cons.mp hc with hc | hc
      · rw [hc, compOf_any hbad]
        have hb := movable_beg hm.1.1
        simp only
        have hcb : (if avail ≠ 0 then max 0 avail else 0) ≤
            (if avail ≠ 0 then max (sync + (eff a.beg).getD 0) avail else sync + (eff a.beg).getD 0) := by
          split <;> omega
        by_cases hn : (eff a.beg).isNone = true
        · rw [if_pos hn]
          exact Int.le_trans hcb (Doc.postBegin_ge _ _)
        · rw [if_neg hn]
          exact hcb
      · exact ih hm.2 c hc

theorem elem_timedKids {avail sync : Int} {bound : Option Int} {d : Int} {x : Att} {l : List (Node Att)} :
    ∀ {kids : List (Node Att)}, movableInL d kids = true → Node.elem x l ∈ kids → timedKids (timesL avail sync bound kids) ≠ []
  | [], _, hx => absurd hx (by simp)
  | k :: ks, hm, hx => by
    rw [movableInL, Bool.and_eq_true] at hm
    cases k with
    | text s =>
      rcases List.mem_cons.mp hx with h | h
      · cases h
      · exact elem_timedKids (kids := ks) hm.2 h
    | br =>
      rcases List.mem_cons.mp hx with h | h
      · cases h
      · exact elem_timedKids (kids := ks) hm.2 h
    | elem a kk =>
      rw [movableIn, Bool.and_eq_true] at hm
      rw [timesL, times, timedKids, if_neg (by simp [(movable_parts hm.1.1).2.1])]
      simp

mutual
/-- Content no leaf of which is without a begin. -/
theorem mv_moved {avail d : Int} (hd : 0 < d) (hdm : d % 1000 = 0) : ∀ (n : Node Att) (bound : Option Int),
    movableIn d n = true → Doc.shaped n = true → untimedLeaf n = false →
    (∀ a ks, n = .elem a ks → a.kind = .body → eff a.dur = none ∨ a.beg.isSome = true) →
    Moves d (times avail 0 (bound.map (· + d)) (mv d n)) (times (held avail d) 0 bound n)
  | .text s, _, _, _, _, _ => ⟨trivial, rfl⟩
  | .br, _, _, _, _, _ => ⟨trivial, rfl⟩
  | .elem a kids, bound, hm, hsh, hu, hdur => by
    rw [movableIn, Bool.and_eq_true] at hm
    rw [Doc.shaped, Bool.and_eq_true] at hsh
    obtain ⟨h1, hbad, _, _, h5, h6⟩ := movable_parts hm.1
    have hbad' := badly_mv (by omega) hdm hm.1
    have hown : ownEnd avail 0 (bound.map (· + d)) (mvAtt d a) = (ownEnd (held avail d) 0 bound a).map (· + d) := by
      apply ownEnd_mv hd hm.1
      intro hk
      rcases hdur a kids rfl hk with h | h
      · exact .inl h
      · obtain ⟨b, hb⟩ := Option.isSome_iff_exists.mp h
        rcases h5 with h5 | h5
        · exact .inr ⟨b, hb, h5 b hb⟩
        · simp [Leaf, hk] at h5
    cases hb : a.beg with
    | some b =>
      have hmv : mv d (.elem a kids) = .elem (mvAtt d a) kids := by rw [mv, hb]; simp [mvAtt, hb]
      have hbeg' : eff (mvAtt d a).beg = some (b.delta + d) := by
        simp only [mvAtt, hb, Option.map_some]; exact eff_mv hd (h1 b (.inl hb)).2.1
      have hbeg : (eff a.beg).getD 0 = b.delta := by rw [hb, eff]; split <;> simp_all
      have h0 := (h1 b (.inl hb)).2.1
      have hkids := timesL_moved (avail := avail) (d := d) (by omega) kids b.delta (below (ownEnd (held avail d) 0 bound a) bound)
        h0 hm.2 hsh.2 a.kind hsh.1
      obtain ⟨k1, k2⟩ := timedKids_moved hkids
      have hcomp : compOf avail 0 (bound.map (· + d)) (mvAtt d a)
            (timedKids (timesL avail (b.delta + d) ((below (ownEnd (held avail d) 0 bound a) bound).map (· + d)) kids)) =
          Comp.moved d (compOf (held avail d) 0 bound a
            (timedKids (timesL (held avail d) b.delta (below (ownEnd (held avail d) 0 bound a) bound) kids))) := by
        rw [compOf_any hbad', compOf_any hbad, hown, k1, ends_moved, below_moved, hbeg', hbeg]
        simp only [Option.isNone_some, Bool.false_eq_true, if_false, Option.getD_some, Comp.moved]
        rw [show 0 + (b.delta + d) = (0 + b.delta) + d by omega, atAvail (by omega) (by omega)]
        congr 1
        by_cases hz : b.delta = 0
        · have hl : Leaf Att.kind a kids = true := by
            rcases h5 with h5 | h5
            · exact absurd hz (h5 b hb)
            · exact h5
          rw [noElem_timedKids (leaf_noElem hl hsh.1)]
          simp [Doc.postBegin]
        · simp [hb, eff, hz]
      rw [hmv, times, times, hbeg', hbeg, hown, below_moved, Int.zero_add, Option.getD_some, Int.zero_add]
      refine ⟨⟨?_, hcomp⟩, ?_⟩
      · simp only; rw [hbad, hbad']
      · simp only [comps, List.map_cons]
        rw [hcomp, k2]
    | none =>
      have hmv : mv d (.elem a kids) = .elem (mvAtt d a) (mvL d kids) := by rw [mv, hb]; simp [mvAtt, hb]
      have hbeg' : eff (mvAtt d a).beg = none := by simp [mvAtt, hb, eff]
      have hbeg : eff a.beg = none := by simp [hb, eff]
      rw [untimedLeaf, hb] at hu
      simp only [Option.isNone_none, Bool.true_and, Bool.or_eq_false_iff] at hu
      have hkids := mvL_moved (avail := avail) hd hdm kids (below (ownEnd (held avail d) 0 bound a) bound) hm.2 hsh.2 hu.2 a.kind hsh.1
      obtain ⟨k1, k2⟩ := timedKids_moved hkids
      obtain ⟨x, l, hx⟩ : ∃ x ks, Node.elem x ks ∈ kids := by
        rcases h6 with h6 | h6
        · have := hu.1
          rw [timedLeaf, h6] at this
          cases this
        · exact h6
      have hne := elem_timedKids (avail := held avail d) (sync := 0) (bound := below (ownEnd (held avail d) 0 bound a) bound) hm.2 hx
      have hlow := kids_available (avail := held avail d) (sync := 0) (bound := below (ownEnd (held avail d) 0 bound a) bound)
        (by omega) hm.2
      have hcomp : compOf avail 0 (bound.map (· + d)) (mvAtt d a)
            (timedKids (timesL avail 0 ((below (ownEnd (held avail d) 0 bound a) bound).map (· + d)) (mvL d kids))) =
          Comp.moved d (compOf (held avail d) 0 bound a
            (timedKids (timesL (held avail d) 0 (below (ownEnd (held avail d) 0 bound a) bound) kids))) := by
        rw [compOf_any hbad', compOf_any hbad, hown, k1, ends_moved, below_moved, hbeg', hbeg]
        simp only [Option.isNone_none, if_true, Option.getD_none, Comp.moved]
        congr 1
        generalize timedKids (timesL (held avail d) 0 (below (ownEnd (held avail d) 0 bound a) bound) kids) = ks at hne hlow
        cases ks with
        | nil => exact absurd rfl hne
        | cons k ks =>
          have e1 : Doc.postBegin (if held avail d ≠ 0 then max (0 + 0) (held avail d) else 0 + 0) (k :: ks) = Doc.minBegin k ks :=
            postBegin_min (by simpa using hlow)
          rw [e1, List.map_cons, postBegin_min, minBegin_moved]
          intro c hc
          rw [← List.map_cons, List.mem_map] at hc
          obtain ⟨c', hc', rfl⟩ := hc
          have := hlow c' hc'
          have h2 : held avail d ≤ c'.b := by
            refine Int.le_trans ?_ this
            split <;> omega
          simp only [Comp.moved]
          unfold held at h2
          split <;> omega
      rw [hmv, times, times, hbeg', hbeg, hown, below_moved, Option.getD_none, Int.add_zero]
      refine ⟨⟨?_, hcomp⟩, ?_⟩
      · simp only; rw [hbad, hbad']
      · simp only [comps, List.map_cons]
        rw [hcomp, k2]
theorem mvL_moved {avail d : Int} (hd : 0 < d) (hdm : d % 1000 = 0) : ∀ (ns : List (Node Att)) (bound : Option Int),
    movableInL d ns = true → Doc.shapedL ns = true → untimedLeafL ns = false → ∀ kd, ns.all (Doc.fits kd) = true →
    List.Forall₂ (Moves d) (timesL avail 0 (bound.map (· + d)) (mvL d ns)) (timesL (held avail d) 0 bound ns)
  | [], _, _, _, _, _, _ => .nil
  | k :: ks, bound, hm, hsh, hu, kd, hf => by
    rw [movableInL, Bool.and_eq_true] at hm
    rw [Doc.shapedL, Bool.and_eq_true] at hsh
    rw [List.all_cons, Bool.and_eq_true] at hf
    rw [untimedLeafL, Bool.or_eq_false_iff] at hu
    refine .cons (mv_moved hd hdm k bound hm.1 hsh.1 hu.1 ?_) (mvL_moved hd hdm ks bound hm.2 hsh.2 hu.2 kd hf.2)
    rintro a ks' rfl hb
    have := hf.1
    simp only [Doc.fits, hb] at this
    cases kd <;> simp at this
end

/-! ### Documents with a leaf that has no begin around it -/

mutual
/-- Such content begins as soon as the document is available. -/
theorem untimedLeaf_b {avail d : Int} : ∀ (n : Node Att) (bound : Option Int), 0 ≤ avail →
    movableIn d n = true → Doc.shaped n = true → untimedLeaf n = true →
    ∃ x ks, times avail 0 bound n = .elem x ks ∧ badly x.att = false ∧ x.comp.b = avail
  | .text s, _, _, _, _, hu => by simp [untimedLeaf] at hu
  | .br, _, _, _, _, hu => by simp [untimedLeaf] at hu
  | .elem a kids, bound, ha, hm, hsh, hu => by
    rw [movableIn, Bool.and_eq_true] at hm
    rw [Doc.shaped, Bool.and_eq_true] at hsh
    rw [untimedLeaf, Bool.and_eq_true, Option.isNone_iff_eq_none, Bool.or_eq_true] at hu
    obtain ⟨hb, hu⟩ := hu
    have hbad := (movable_parts hm.1).2.1
    have hbeg : eff a.beg = none := by simp [hb, eff]
    refine ⟨_, _, times.eq_3 .., hbad, ?_⟩
    simp only [hbeg, Option.getD_none, Int.add_zero]
    rw [compOf_any hbad]
    simp only [hbeg, Option.isNone_none, if_true, Option.getD_none, Int.add_zero]
    have hcb : (if avail ≠ 0 then max 0 avail else 0) = avail := by split <;> omega
    rw [hcb]
    rcases hu with hu | hu
    · rw [noElem_timedKids (leaf_noElem hu hsh.1)]
      rfl
    · obtain ⟨c, hc, hca⟩ := untimedLeafL_b kids (below (ownEnd avail 0 bound a) bound) ha hm.2 hsh.2 hu
      generalize timedKids (timesL avail 0 (below (ownEnd avail 0 bound a) bound) kids) = ks at hc
      cases ks with
      | nil => simp at hc
      | cons k ks =>
        have := (Doc.minBegin_spec ks k).2 c hc
        simp only [Doc.postBegin]
        split <;> omega
theorem untimedLeafL_b {avail d : Int} : ∀ (ns : List (Node Att)) (bound : Option Int), 0 ≤ avail →
    movableInL d ns = true → Doc.shapedL ns = true → untimedLeafL ns = true →
    ∃ c ∈ timedKids (timesL avail 0 bound ns), c.b = avail
  | [], _, _, _, _, hu => by simp [untimedLeafL] at hu
  | k :: ks, bound, ha, hm, hsh, hu => by
    rw [movableInL, Bool.and_eq_true] at hm
    rw [Doc.shapedL, Bool.and_eq_true] at hsh
    rw [untimedLeafL, Bool.or_eq_true] at hu
    rcases hu with hu | hu
    · obtain ⟨x, l, he, hbad, hb⟩ := untimedLeaf_b k bound ha hm.1 hsh.1 hu
      refine ⟨x.comp, ?_, hb⟩
      rw [timesL, he, timedKids, if_neg (by simp [hbad])]
      exact List.mem_cons_self
    · obtain ⟨c, hc, hb⟩ := untimedLeafL_b ks bound ha hm.2 hsh.2 hu
      refine ⟨c, ?_, hb⟩
      rw [timesL]
      cases times avail 0 bound k with
      | text s => exact hc
      | br => exact hc
      | elem x l =>
        rw [timedKids]
        split
        · exact hc
        · exact List.mem_cons_of_mem _ hc
end

/-- The body begins at the delay instead. -/
theorem body_moved {avail d : Int} (hd : 0 < d) (hdm : d % 1000 = 0) (hd1 : d < 360000000000)
    {a : Att} {kids : List (Node Att)} (hk : a.kind = .body) (hm : movableIn d (.elem a kids) = true)
    (hsh : Doc.shaped (.elem a kids) = true) (hu : untimedLeaf (.elem a kids) = true) (hdur : eff a.dur = none ∨ avail ≤ d) :
    Moves d (times avail 0 none (.elem { a with beg := some ⟨Time.writeFull d, d⟩, fin := a.fin.map (mvTV d) } kids))
      (times (held avail d) 0 none (.elem a kids)) := by
  obtain ⟨x, l, he, _, hxb⟩ := untimedLeaf_b (.elem a kids) none (avail := held avail d) (by unfold held; omega) hm hsh hu
  rw [movableIn, Bool.and_eq_true] at hm
  rw [Doc.shaped, Bool.and_eq_true] at hsh
  rw [untimedLeaf, Bool.and_eq_true, Option.isNone_iff_eq_none] at hu
  obtain ⟨h1, hbad, _, h4, _, _⟩ := movable_parts hm.1
  have hbeg : eff a.beg = none := by simp [hu.1, eff]
  generalize ha' : ({ a with beg := some ⟨Time.writeFull d, d⟩, fin := a.fin.map (mvTV d) } : Att) = a'
  have hbeg' : eff a'.beg = some d := by
    rw [← ha']; simp only [eff]; rw [if_neg (by omega)]
  have hfin : eff a'.fin = (eff a.fin).map (· + d) := by
    rw [← ha']
    cases he : a.fin with
    | none => rfl
    | some e =>
      simp only [Option.map_some]
      rw [eff_mv hd (h1 e (.inr he)).2.1, eff, if_neg (h4 e he)]
      rfl
  have hbad' : badly a' = false := by
    rw [← ha']
    unfold badly
    cases hf : a.fin with
    | none => rfl
    | some e =>
      have h2 := h1 e (.inr hf)
      have h3 := h4 e hf
      have := text_order (b := ⟨[], 0⟩) (e := e) (d := d) (by omega) hdm (by simp only; omega) h2 (by simp only; omega)
      simpa [mvTV] using this
  have hown : ownEnd avail 0 none a' = (ownEnd (held avail d) 0 none a).map (· + d) := by
    unfold ownEnd Doc.preEnd Doc.baseEnd
    rw [show a'.kind = .body by rw [← ha']; exact hk, hk, show a'.dur = a.dur by rw [← ha'], hfin, hbeg', hbeg]
    rcases hdur with hdur | hdur
    · rw [hdur]; cases eff a.fin <;> simp
    · have : held avail d = 0 := by unfold held; omega
      cases eff a.dur <;> cases eff a.fin <;> simp [this]
  have hkids := timesL_moved (avail := avail) (d := d) (by omega) kids 0 (below (ownEnd (held avail d) 0 none a) none)
    (by omega) hm.2 hsh.2 a.kind hsh.1
  obtain ⟨k1, k2⟩ := timedKids_moved hkids
  rw [times, hbeg, Option.getD_none, Int.add_zero] at he
  injection he with he _
  rw [← he] at hxb
  simp only at hxb
  have hcomp : compOf avail 0 none a'
        (timedKids (timesL avail (0 + d) ((below (ownEnd (held avail d) 0 none a) none).map (· + d)) kids)) =
      Comp.moved d (compOf (held avail d) 0 none a
        (timedKids (timesL (held avail d) 0 (below (ownEnd (held avail d) 0 none a) none) kids))) := by
    have e2 : Comp.moved d (compOf (held avail d) 0 none a
        (timedKids (timesL (held avail d) 0 (below (ownEnd (held avail d) 0 none a) none) kids))) =
        ⟨held avail d + d, ((compOf (held avail d) 0 none a
        (timedKids (timesL (held avail d) 0 (below (ownEnd (held avail d) 0 none a) none) kids))).e).map (· + d)⟩ := by
      unfold Comp.moved; rw [hxb]
    rw [e2, k1, compOf_any hbad', compOf_any hbad, hown, hbeg']
    simp only [Option.isNone_some, Bool.false_eq_true, if_false, Option.getD_some]
    congr 1
    · unfold held; split <;> omega
    · rw [← below_moved, ← ends_moved]; rfl
  rw [times, times, hbeg', hbeg, hown, Option.getD_none, Option.getD_some, Int.add_zero,
    show below ((ownEnd (held avail d) 0 none a).map (· + d)) none = (below (ownEnd (held avail d) 0 none a) none).map (· + d) from
      below_moved d _ none]
  refine ⟨⟨?_, hcomp⟩, ?_⟩
  · simp only; rw [hbad, hbad']
  · simp only [comps, List.map_cons]
    rw [hcomp, k2]

mutual
theorem untimed_mv (d : Int) : ∀ (n : Node Att), untimed (mv d n) = untimed n
  | .text s => rfl
  | .br => rfl
  | .elem a kids => by
    rw [mv]
    cases hb : a.beg with
    | none => simp only [untimed]; rw [untimedL_mv d kids]
    | some b => simp only [untimed]
theorem untimedL_mv (d : Int) : ∀ (ns : List (Node Att)), untimedL (mvL d ns) = untimedL ns
  | [] => rfl
  | k :: ks => by rw [mvL, untimedL, untimedL, untimed_mv d k, untimedL_mv d ks]
end

/-- **C37 (partial).**  A document with time base clock or media retimed by a delay `d`: the retimed document
has the same elements, text and attributes but for begin and end; and if it is validated, every element's computed
begin and end are `d` later than those of the original document validated with an availability time `d`
earlier (or 0).  In particular with no availability time the shift is exact.  Missing: the conditions in
`movableIn`, whole milliseconds, and a body with `dur` and no begin; each is needed (`C37_false_*` below). -/
theorem C37_everything_moves_partial (rd : Reader) (hrd : rd.Accurate) (base : TimeBase) (hb : base ≠ .smpte)
    (d avail : Int) (hd : 0 < d) (hdm : d % 1000 = 0) (hd1 : d < 360000000000)
    (a : Att) (kids : List (Node Att)) (hk : a.kind = .body) (hsh : Doc.shaped (.elem a kids) = true)
    (hm : movableIn d (.elem a kids) = true)
    (hdur : eff a.dur = none ∨ a.beg.isSome = true ∨ (untimedLeaf (.elem a kids) = true ∧ avail ≤ d)) :
    ∃ root', retimeDoc base rd d (.elem a kids) = some root' ∧ untimed root' = untimed (.elem a kids) ∧
      ∃ v v', Doc.validateDoc (max (avail - d) 0) (.elem a kids) = .ok v ∧ Doc.validateDoc avail root' = .ok v' ∧
        comps v' = (comps v).map (fun c => ⟨c.b + d, c.e.map (· + d)⟩) := by
  by_cases hu : untimedLeaf (.elem a kids) = true
  · have hu' := hu
    rw [untimedLeaf, Bool.and_eq_true, Option.isNone_iff_eq_none] at hu'
    have hs : stamp base rd d = some ⟨Time.writeFull d, d⟩ := stamp_eq hrd hb (by omega) hdm hd1
    have hfin : shiftOpt base rd d a.fin = some (a.fin.map (mvTV d)) := by
      rw [movableIn, Bool.and_eq_true] at hm
      obtain ⟨h1, _⟩ := movable_parts hm.1
      cases hf : a.fin with
      | none => rfl
      | some v =>
        obtain ⟨m1, m2, m3⟩ := h1 v (.inr hf)
        rw [shiftOpt, shiftTV_eq hrd hb (by omega) hdm m2 m1 m3]; rfl
    refine ⟨.elem { a with beg := some ⟨Time.writeFull d, d⟩, fin := a.fin.map (mvTV d) } kids, ?_, ?_,
      _, _, Doc.validateDoc_eq _ _, Doc.validateDoc_eq _ _, ?_⟩
    · rw [retimeDoc, if_pos hu, retimeBody.eq_def]
      simp only [hu'.1]
      cases base with
      | smpte => exact absurd rfl hb
      | clock => simp only [hs, hfin, Option.bind_some, Option.map_some]
      | media => simp only [hs, hfin, Option.bind_some, Option.map_some]
    · simp only [untimed]
    · have hdur' : eff a.dur = none ∨ avail ≤ d := by
        rcases hdur with h | h | h
        · exact .inl h
        · rw [hu'.1] at h; cases h
        · exact .inr h.2
      exact (body_moved hd hdm hd1 hk hm hsh hu hdur').2
  · refine ⟨mv d (.elem a kids), ?_, untimed_mv d _, _, _, Doc.validateDoc_eq _ _, Doc.validateDoc_eq _ _, ?_⟩
    · rw [retimeDoc, if_neg hu]
      exact retime_eq hrd hb (by omega) hdm _ hm
    · have := mv_moved (avail := avail) hd hdm (.elem a kids) none hm hsh (by simpa using hu) (by
        intro a' ks' he _
        injection he with he _
        subst he
        rcases hdur with h | h | h
        · exact .inl h
        · exact .inr h
        · exact absurd h.1 hu)
      exact this.2

/-! ### What is shown -/

/-- A leaf's times and content. -/
def leafView (p : Lab × List Doc.Item) : Comp × List Doc.Item := (p.1.comp, p.2)
def leafMoved (d : Int) (p : Comp × List Doc.Item) : Comp × List Doc.Item := (Comp.moved d p.1, p.2)

theorem items_same : ∀ {xs ys : List (Node Lab)}, untimedL (Doc.eraseL xs) = untimedL (Doc.eraseL ys) →
    Doc.items xs = Doc.items ys ∧
      xs.any (Doc.isSpan (fun x => x.att.kind)) = ys.any (Doc.isSpan (fun x => x.att.kind))
  | [], [], _ => ⟨rfl, rfl⟩
  | [], y :: ys, h => by simp [Doc.eraseL, untimedL] at h
  | x :: xs, [], h => by simp [Doc.eraseL, untimedL] at h
  | x :: xs, y :: ys, h => by
    simp only [Doc.eraseL, untimedL, List.cons.injEq] at h
    obtain ⟨i1, i2⟩ := items_same h.2
    have h1 := h.1
    cases x <;> cases y <;> simp only [Doc.erase, untimed] at h1 <;> try cases h1
    · exact ⟨by simp only [Doc.items]; rw [i1], by simp only [List.any_cons]; rw [i2]⟩
    · exact ⟨by simp only [Doc.items]; rw [i1], by simp only [List.any_cons]; rw [i2]⟩
    · rename_i a k1 b k2
      simp only [Node.elem.injEq, Att.mk.injEq] at h1
      refine ⟨by simp only [Doc.items]; exact i1, ?_⟩
      simp only [List.any_cons, Doc.isSpan]
      simp only [i2, h1.1.1]

mutual
theorem comps_length : ∀ {x y : Node Lab}, untimed (Doc.erase x) = untimed (Doc.erase y) → (comps x).length = (comps y).length
  | .text s, y, h => by cases y <;> simp [Doc.erase, untimed] at h <;> rfl
  | .br, y, h => by cases y <;> simp [Doc.erase, untimed] at h <;> rfl
  | .elem a k, y, h => by
    cases y with
    | text s => simp [Doc.erase, untimed] at h
    | br => simp [Doc.erase, untimed] at h
    | elem b l =>
      simp only [Doc.erase, untimed, Node.elem.injEq] at h
      simp only [comps, List.length_cons]
      rw [compsL_length h.2]
theorem compsL_length : ∀ {xs ys : List (Node Lab)}, untimedL (Doc.eraseL xs) = untimedL (Doc.eraseL ys) →
    (compsL xs).length = (compsL ys).length
  | [], [], _ => rfl
  | [], y :: ys, h => by simp [Doc.eraseL, untimedL] at h
  | x :: xs, [], h => by simp [Doc.eraseL, untimedL] at h
  | x :: xs, y :: ys, h => by
    simp only [Doc.eraseL, untimedL, List.cons.injEq] at h
    rw [compsL, compsL, List.length_append, List.length_append, comps_length h.1, compsL_length h.2]
end

mutual
theorem leaves_moved (d : Int) : ∀ {x y : Node Lab}, untimed (Doc.erase x) = untimed (Doc.erase y) →
    comps x = (comps y).map (Comp.moved d) → (Doc.leavesOf x).map leafView = ((Doc.leavesOf y).map leafView).map (leafMoved d)
  | .text s, y, h, _ => by cases y <;> simp [Doc.erase, untimed] at h <;> rfl
  | .br, y, h, _ => by cases y <;> simp [Doc.erase, untimed] at h <;> rfl
  | .elem a k, y, h, hc => by
    cases y with
    | text s => simp [Doc.erase, untimed] at h
    | br => simp [Doc.erase, untimed] at h
    | elem b l =>
      simp only [Doc.erase, untimed, Node.elem.injEq] at h
      obtain ⟨i1, i2⟩ := items_same h.2
      have hkind : a.att.kind = b.att.kind := by
        have := h.1
        simp only [Att.mk.injEq] at this
        exact this.1
      simp only [comps, List.map_cons, List.cons.injEq] at hc
      have ih := leavesL_moved d h.2 hc.2
      simp only [Doc.leavesOf, Doc.leaves]
      rw [show Leaf (fun x : Lab => x.att.kind) a k = Leaf (fun x : Lab => x.att.kind) b l by
        unfold Leaf; simp only [hkind, i2], i1]
      split
      · split
        · simp only [List.map_cons, List.map_nil, leafView, leafMoved]; rw [hc.1]
        · rfl
      · exact ih
theorem leavesL_moved (d : Int) : ∀ {xs ys : List (Node Lab)}, untimedL (Doc.eraseL xs) = untimedL (Doc.eraseL ys) →
    compsL xs = (compsL ys).map (Comp.moved d) →
    (Doc.leavesL (fun x : Lab => x.att.kind) xs).map leafView =
      ((Doc.leavesL (fun x : Lab => x.att.kind) ys).map leafView).map (leafMoved d)
  | [], [], _, _ => rfl
  | [], y :: ys, h, _ => by simp [Doc.eraseL, untimedL] at h
  | x :: xs, [], h, _ => by simp [Doc.eraseL, untimedL] at h
  | x :: xs, y :: ys, h, hc => by
    simp only [Doc.eraseL, untimedL, List.cons.injEq] at h
    rw [compsL, compsL, List.map_append] at hc
    obtain ⟨h1, h2⟩ := List.append_inj hc (by rw [List.length_map]; exact comps_length h.1)
    have e1 := leaves_moved d h.1 h1
    have e2 := leavesL_moved d h.2 h2
    simp only [Doc.leavesOf] at e1
    simp only [Doc.leavesL, List.map_append, e1, e2]
end

theorem shown_moved {d : Int} {x y : Node Lab} (h : untimed (Doc.erase x) = untimed (Doc.erase y))
    (hc : comps x = (comps y).map (Comp.moved d)) (t : Int) : Doc.shownAt x (t + d) = Doc.shownAt y t := by
  have hl := leaves_moved d h hc
  have e : ∀ (l : List (Lab × List Doc.Item)) (t : Int), (l.filter (fun p => p.1.comp.at t)).map (·.2) =
      ((l.map leafView).filter (fun p => p.1.at t)).map (·.2) := by
    intro l t
    induction l with
    | nil => rfl
    | cons p l ih =>
      simp only [List.filter_cons, List.map_cons, leafView]
      split
      · rw [List.map_cons, List.map_cons, ih]
      · exact ih
  unfold Doc.shownAt
  rw [e, e, hl]
  generalize (Doc.leavesOf y).map leafView = l
  induction l with
  | nil => rfl
  | cons p l ih =>
    have hp : (Comp.moved d p.1).at (t + d) = p.1.at t := by
      unfold Doc.Comp.at Comp.moved
      cases p.1.e with
      | none => simp
      | some e => simp
    simp only [List.filter_cons, List.map_cons, leafMoved, hp]
    split
    · rw [List.map_cons, List.map_cons, ih]
    · exact ih

/-- **C37 (partial)**  What the retimed document shows: at every instant what the original showed a delay earlier. -/
theorem C37_shown_later_partial (rd : Reader) (hrd : rd.Accurate) (base : TimeBase) (hb : base ≠ .smpte)
    (d avail : Int) (hd : 0 < d) (hdm : d % 1000 = 0) (hd1 : d < 360000000000)
    (a : Att) (kids : List (Node Att)) (hk : a.kind = .body) (hsh : Doc.shaped (.elem a kids) = true)
    (hm : movableIn d (.elem a kids) = true)
    (hdur : eff a.dur = none ∨ a.beg.isSome = true ∨ (untimedLeaf (.elem a kids) = true ∧ avail ≤ d)) :
    ∃ root' v v', retimeDoc base rd d (.elem a kids) = some root' ∧
      Doc.validateDoc (max (avail - d) 0) (.elem a kids) = .ok v ∧ Doc.validateDoc avail root' = .ok v' ∧
      ∀ t, Doc.shownAt v' (t + d) = Doc.shownAt v t := by
  obtain ⟨r, h1, h2, v, v', h3, h4, h5⟩ := C37_everything_moves_partial rd hrd base hb d avail hd hdm hd1 a kids hk hsh hm hdur
  refine ⟨r, v, v', h1, h3, h4, fun t => shown_moved ?_ h5 t⟩
  rw [Doc.validateDoc_eq] at h3 h4
  injection h3 with h3
  injection h4 with h4
  have er : ∀ (av : Int) (n : Node Att), Doc.erase (times av 0 none n) = n := by
    intro av n
    obtain ⟨m, e1, e2⟩ := Doc.C15_context_restored (Doc.initCtx av) n
    rw [Doc.validate_eq] at e1
    injection e1 with e1
    injection e1 with _ e1
    rw [← e1] at e2
    exact e2
  rw [← h3, ← h4, er, er]
  exact h2

/-- A body without a begin and a div that begins at 1 s and holds a p of 2 s to 5 s: nothing is without a
begin around it, the div is moved. -/
def exDivs : List (Node Att) :=
  [.elem { kind := .div, beg := Doc.sec 1 } [.elem { kind := .p, beg := Doc.sec 2, fin := Doc.sec 5 } [.text "a".toList]]]
def exTimed : Node Att := .elem { kind := .body } exDivs
/-- A body with an end and a p that has only an end: the body gets a begin. -/
def exDivs' : List (Node Att) :=
  [.elem { kind := .div }
    [.elem { kind := .p, fin := Doc.sec 5 } [.text "a".toList], .elem { kind := .p, beg := Doc.sec 2 } [.text "b".toList]]]
def exUntimed : Node Att := .elem { kind := .body, fin := Doc.sec 9 } exDivs'

example : ∃ root', retimeDoc .clock Time.exactReader 3000000 exTimed = some root' ∧ untimed root' = untimed exTimed ∧
    ∃ v v', Doc.validateDoc 0 exTimed = .ok v ∧ Doc.validateDoc 2000000 root' = .ok v' ∧
      comps v = [⟨1000000, some 6000000⟩, ⟨1000000, some 6000000⟩, ⟨3000000, some 6000000⟩] ∧
      comps v' = [⟨4000000, some 9000000⟩, ⟨4000000, some 9000000⟩, ⟨6000000, some 9000000⟩] := by
  obtain ⟨r, h1, h2, v, v', h3, h4, h5⟩ := C37_everything_moves_partial Time.exactReader Time.exactReader_accurate .clock (by decide)
    3000000 2000000 (by decide) (by decide) (by decide) { kind := .body } exDivs rfl (by decide) (by decide +kernel) (.inl rfl)
  refine ⟨r, h1, h2, v, v', h3, h4, ?_⟩
  rw [Doc.validateDoc_eq] at h3
  injection h3 with h3
  have : comps v = [⟨1000000, some 6000000⟩, ⟨1000000, some 6000000⟩, ⟨3000000, some 6000000⟩] := by rw [← h3]; decide +kernel
  rw [h5, this]
  exact ⟨rfl, rfl⟩

example : ∃ root', retimeDoc .media Time.exactReader 3000000 exUntimed = some root' ∧ untimed root' = untimed exUntimed ∧
    ∃ v v', Doc.validateDoc 0 exUntimed = .ok v ∧ Doc.validateDoc 0 root' = .ok v' ∧
      comps v = [⟨0, some 9000000⟩, ⟨0, some 9000000⟩, ⟨0, some 5000000⟩, ⟨2000000, some 9000000⟩] ∧
      comps v' = [⟨3000000, some 12000000⟩, ⟨3000000, some 12000000⟩, ⟨3000000, some 8000000⟩, ⟨5000000, some 12000000⟩] := by
  obtain ⟨r, h1, h2, v, v', h3, h4, h5⟩ := C37_everything_moves_partial Time.exactReader Time.exactReader_accurate .media (by decide)
    3000000 0 (by decide) (by decide) (by decide) { kind := .body, fin := Doc.sec 9 } exDivs' rfl (by decide) (by decide +kernel) (.inl rfl)
  refine ⟨r, h1, h2, v, v', h3, h4, ?_⟩
  rw [Doc.validateDoc_eq] at h3
  injection h3 with h3
  have : comps v = [⟨0, some 9000000⟩, ⟨0, some 9000000⟩, ⟨0, some 5000000⟩, ⟨2000000, some 9000000⟩] := by rw [← h3]; decide +kernel
  rw [h5, this]
  exact ⟨rfl, rfl⟩

/-! ### Where it fails -/

/-- The computed times before and after. -/
def timesOf (avail : Int) (root : Node Att) : Option (List Comp) := (Doc.validateDoc avail root).toOption.map comps
def timesAfter (base : TimeBase) (d avail : Int) (root : Node Att) : Option (List Comp) :=
  (retimeDoc base Time.exactReader d root).bind (timesOf avail)

/-- A body with a duration and no begin, whose content has begins: content moves out of the body, whose end
stays. -/
theorem C37_false_duration : ∃ root, Doc.shaped root = true ∧
    timesOf 0 root = some [⟨1000000, some 10000000⟩, ⟨1000000, some 10000000⟩, ⟨1000000, some 10000000⟩] ∧
    timesAfter .media 20000000 0 root = some [⟨21000000, some 10000000⟩, ⟨21000000, some 10000000⟩, ⟨21000000, some 10000000⟩] :=
  ⟨.elem { kind := .body, dur := Doc.sec 10 } [.elem { kind := .div, beg := Doc.sec 1 } [.elem { kind := .p } [.text ['a']]]],
    by decide, by decide +kernel, by decide +kernel⟩

/-- An empty div is not moved. -/
theorem C37_false_empty_container : ∃ root, Doc.shaped root = true ∧
    timesOf 0 root = some [⟨0, none⟩, ⟨1000000, none⟩, ⟨1000000, none⟩, ⟨0, none⟩] ∧
    timesAfter .media 20000000 0 root = some [⟨0, none⟩, ⟨21000000, none⟩, ⟨21000000, none⟩, ⟨0, none⟩] :=
  ⟨.elem { kind := .body } [.elem { kind := .div, beg := Doc.sec 1 } [.elem { kind := .p } [.text ['a']]], .elem { kind := .div } []],
    by decide, by decide +kernel, by decide +kernel⟩

/-- A container with begin zero begins with its first child before, and at the delay afterwards. -/
theorem C37_false_zero_begin : ∃ root, Doc.shaped root = true ∧
    timesOf 0 root = some [⟨1000000, none⟩, ⟨1000000, none⟩, ⟨1000000, none⟩] ∧
    timesAfter .media 20000000 0 root = some [⟨20000000, none⟩, ⟨20000000, none⟩, ⟨21000000, none⟩] :=
  ⟨.elem { kind := .body } [.elem { kind := .div, beg := Doc.sec 0 } [.elem { kind := .p, beg := Doc.sec 1 } [.text ['a']]]],
    by decide, by decide +kernel, by decide +kernel⟩

/-- Begin 9s and end 10s is taken for badly timed; written as clock times after retiming it no longer is. -/
theorem C37_false_badly_timed : ∃ root, Doc.shaped root = true ∧
    timesOf 0 root = some [⟨0, none⟩, ⟨0, none⟩, ⟨9000000, some 10000000⟩] ∧
    timesAfter .media 20000000 0 root = some [⟨29000000, some 30000000⟩, ⟨29000000, some 30000000⟩, ⟨29000000, some 30000000⟩] :=
  ⟨.elem { kind := .body } [.elem { kind := .div } [.elem { kind := .p, beg := Doc.sec 9, fin := Doc.sec 10 } [.text ['a']]]],
    by decide, by decide +kernel, by decide +kernel⟩

/-- Below the millisecond times are cut off. -/
theorem C37_false_microseconds : ∃ root, Doc.shaped root = true ∧
    timesOf 0 root = some [⟨1000500, none⟩, ⟨1000500, none⟩, ⟨1000500, none⟩] ∧
    timesAfter .media 20000000 0 root = some [⟨21000000, none⟩, ⟨21000000, none⟩, ⟨21000000, none⟩] :=
  ⟨.elem { kind := .body } [.elem { kind := .div } [.elem { kind := .p, beg := some ⟨"1.0005s".toList, 1000500⟩ } [.text ['a']]]],
    by decide, by decide +kernel, by decide +kernel⟩

/-- With time base smpte nothing is moved. -/
theorem C37_false_smpte (rd : Reader) (d : Int) (a : Att) (kids : List (Node Att)) (hk : a.beg = none) :
    untimedLeaf (.elem a kids) = true → retimeDoc .smpte rd d (.elem a kids) = some (.elem a kids) := by
  intro hu
  rw [retimeDoc, if_pos hu, retimeBody, hk]

/-- With time base clock a time that would reach 100 hours is an error. -/
theorem C37_false_hundred_hours : ∃ root, Doc.shaped root = true ∧ (timesOf 0 root).isSome = true ∧
    retimeDoc .clock Time.exactReader 20000000 root = none := by
  refine ⟨.elem { kind := .body } [.elem { kind := .div } [.elem { kind := .p, beg := some ⟨"99:59:50".toList, 359990000000⟩ } [.text ['a']]]],
    by decide, by decide +kernel, ?_⟩
  have h : (retimeDoc .clock Time.exactReader 20000000 (.elem { kind := .body } [.elem { kind := .div }
      [.elem { kind := .p, beg := some ⟨"99:59:50".toList, 359990000000⟩ } [.text ['a']]]])).isNone = true := by decide +kernel
  exact Option.isNone_iff_eq_none.mp h

/-! ### The node -/

/-- The documents emitted. -/
def emittedDocs : List TRes → List TDoc
  | [] => []
  | .emitted (.doc d) :: rs => d :: emittedDocs rs
  | _ :: rs => emittedDocs rs
/-- The messages emitted, and received. -/
def emittedMsgs : List TRes → List String
  | [] => []
  | .emitted (.msg m) :: rs => m :: emittedMsgs rs
  | _ :: rs => emittedMsgs rs
def receivedMsgs : List TIn → List String
  | [] => []
  | .msg m :: is => m :: receivedMsgs is
  | _ :: is => receivedMsgs is

/-- What is not a document is passed on, in order. -/
theorem C37_messages_passed_on (rd : Reader) (out : String) (delay : Int) (is : List TIn) : ∀ s : TState,
    emittedMsgs (runT rd out delay s is).2 = receivedMsgs is := by
  induction is with
  | nil => intro s; rfl
  | cons i is ih =>
    intro s
    cases i with
    | msg m => simp [runT, retimeNode, emittedMsgs, receivedMsgs, ih]
    | doc d =>
      have key : ∀ r : TRes, (∀ m, r ≠ .emitted (.msg m)) → ∀ rs, emittedMsgs (r :: rs) = emittedMsgs rs := by
        intro r hr rs
        cases r with
        | emitted o =>
          cases o with
          | doc d => rfl
          | msg m => exact absurd rfl (hr m)
        | duplicate => rfl
        | otherSequence => rfl
        | failed => rfl
      rw [runT, show receivedMsgs (.doc d :: is) = receivedMsgs is from rfl]
      simp only
      rw [key _ ?_, ih]
      intro m
      simp only [retimeNode]
      split
      · simp
      · split
        · split
          · simp
          · cases retimeDoc d.base rd delay d.body <;> simp
        · simp

/-- `o` is `i` retimed under the new identifier. -/
def Retimed (rd : Reader) (out : String) (delay : Int) (i o : TDoc) : Prop :=
  o.sid = out ∧ o.num = i.num ∧ o.base = i.base ∧ retimeDoc i.base rd delay i.body = some o.body

theorem retimed_run (rd : Reader) (out : String) (delay : Int) (is : List TIn) : ∀ (s : TState) (sid : String),
    s.first = some sid →
    ∀ o ∈ emittedDocs (runT rd out delay s is).2, ∃ i, TIn.doc i ∈ is ∧ i.sid = sid ∧ i.sid ≠ out ∧ Retimed rd out delay i o := by
  induction is with
  | nil => intro s sid _ o ho; simp [runT, emittedDocs] at ho
  | cons i is ih =>
    intro s sid hf o ho
    have lift : (∃ i', TIn.doc i' ∈ is ∧ i'.sid = sid ∧ i'.sid ≠ out ∧ Retimed rd out delay i' o) →
        ∃ i', TIn.doc i' ∈ i :: is ∧ i'.sid = sid ∧ i'.sid ≠ out ∧ Retimed rd out delay i' o :=
      fun ⟨i', h1, h2, h3⟩ => ⟨i', List.mem_cons_of_mem _ h1, h2, h3⟩
    cases i with
    | msg m =>
      simp only [runT, retimeNode, emittedDocs] at ho
      exact lift (ih s sid hf o ho)
    | doc d =>
      rw [runT] at ho
      simp only [retimeNode] at ho
      split at ho
      · exact lift (ih _ sid hf o ho)
      · rename_i hne
        split at ho
        · split at ho
          · exact lift (ih ⟨(checkSeen s.seen d.sid d.num).2, s.first⟩ sid hf o ho)
          · rename_i hsid
            have hd : d.sid = sid := by
              rw [hf] at hsid; simpa using Eq.symm (Decidable.not_not.mp hsid)
            cases hr : retimeDoc d.base rd delay d.body with
            | none =>
              rw [hr] at ho
              simp only [emittedDocs] at ho
              exact lift (ih _ sid (by simp [hd]) o ho)
            | some body =>
              rw [hr] at ho
              simp only [emittedDocs, List.mem_cons] at ho
              rcases ho with ho | ho
              · exact ⟨d, List.mem_cons_self, hd, hne, by rw [ho]; exact ⟨rfl, rfl, rfl, hr⟩⟩
              · exact lift (ih _ sid (by simp [hd]) o ho)
        · exact lift (ih ⟨(checkSeen s.seen d.sid d.num).2, s.first⟩ sid hf o ho)

/-- **C37**  Whatever the node receives, there is one sequence such that every document it emits is a received
document of that sequence retimed, with the configured identifier — which is not that sequence's — and its
number kept. -/
theorem C37_node_emits_retimed (rd : Reader) (out : String) (delay : Int) (is : List TIn) :
    ∃ sid, sid ≠ out ∧ ∀ o ∈ emittedDocs (runT rd out delay {} is).2,
      ∃ i, TIn.doc i ∈ is ∧ i.sid = sid ∧ Retimed rd out delay i o := by
  have gen : ∀ (is : List TIn) (s : TState), s.first = none →
      emittedDocs (runT rd out delay s is).2 = [] ∨ ∃ sid, sid ≠ out ∧ ∀ o ∈ emittedDocs (runT rd out delay s is).2,
        ∃ i, TIn.doc i ∈ is ∧ i.sid = sid ∧ Retimed rd out delay i o := by
    intro is
    induction is with
    | nil => intro s _; exact .inl rfl
    | cons i is ih =>
      intro s hf
      have lift : ∀ s', s'.first = none → emittedDocs (runT rd out delay s (i :: is)).2 = emittedDocs (runT rd out delay s' is).2 →
          emittedDocs (runT rd out delay s (i :: is)).2 = [] ∨
          ∃ sid, sid ≠ out ∧ ∀ o ∈ emittedDocs (runT rd out delay s (i :: is)).2,
            ∃ i', TIn.doc i' ∈ i :: is ∧ i'.sid = sid ∧ Retimed rd out delay i' o := by
        intro s' hs' he
        rw [he]
        rcases ih s' hs' with h | ⟨sid, hne, h⟩
        · exact .inl h
        · exact .inr ⟨sid, hne, fun o ho => (h o ho).elim fun i' h => ⟨i', List.mem_cons_of_mem _ h.1, h.2⟩⟩
      cases i with
      | msg m => exact lift s hf (by simp [runT, retimeNode, emittedDocs])
      | doc d =>
        by_cases h1 : d.sid = out
        · exact lift s hf (by simp [runT, retimeNode, emittedDocs, h1])
        · by_cases h2 : (checkSeen s.seen d.sid d.num).1 = true
          · right
            refine ⟨d.sid, h1, ?_⟩
            intro o ho
            have hstep : retimeNode rd out delay s (.doc d) =
                (match retimeDoc d.base rd delay d.body with
                | none => (⟨(checkSeen s.seen d.sid d.num).2, some d.sid⟩, TRes.failed)
                | some body => (⟨(checkSeen s.seen d.sid d.num).2, some d.sid⟩, .emitted (.doc { d with sid := out, body := body }))) := by
              simp [retimeNode, h1, h2, hf]
              cases retimeDoc d.base rd delay d.body <;> rfl
            rw [runT, hstep] at ho
            cases hr : retimeDoc d.base rd delay d.body with
            | none =>
              rw [hr] at ho
              simp only [emittedDocs] at ho
              obtain ⟨i', m1, m2, _, m3⟩ := retimed_run rd out delay is _ d.sid rfl o ho
              exact ⟨i', List.mem_cons_of_mem _ m1, m2, m3⟩
            | some body =>
              rw [hr] at ho
              simp only [emittedDocs, List.mem_cons] at ho
              rcases ho with ho | ho
              · exact ⟨d, List.mem_cons_self, rfl, by rw [ho]; exact ⟨rfl, rfl, rfl, hr⟩⟩
              · obtain ⟨i', m1, m2, _, m3⟩ := retimed_run rd out delay is _ d.sid rfl o ho
                exact ⟨i', List.mem_cons_of_mem _ m1, m2, m3⟩
          · exact lift ⟨(checkSeen s.seen d.sid d.num).2, s.first⟩ hf (by simp [runT, retimeNode, emittedDocs, h1, h2])
  rcases gen is {} rfl with h | h
  · refine ⟨out ++ "x", ?_, ?_⟩
    · intro he
      have := congrArg String.length he
      simp at this
    · rw [h]; simp
  · exact h

/-- **C37**  A sequence under another identifier than the configured one, without repeated numbers, and all of
whose documents can be retimed, comes out complete and in order. -/
theorem C37_node_emits_all (rd : Reader) (out : String) (delay : Int) (sid : String) (hne : sid ≠ out) (ds : List TDoc)
    (hs : ∀ d ∈ ds, d.sid = sid) (hn : (ds.map TDoc.num).Nodup)
    (hr : ∀ d ∈ ds, (retimeDoc d.base rd delay d.body).isSome = true) :
    List.Forall₂ (Retimed rd out delay) ds (emittedDocs (runT rd out delay {} (ds.map .doc)).2) := by
  have gen : ∀ (ds : List TDoc) (s : TState), (s.first = none ∨ s.first = some sid) → (∀ d ∈ ds, d.sid = sid) →
      (ds.map TDoc.num).Nodup → (∀ d ∈ ds, d.num ∉ s.seen.get sid) →
      (∀ d ∈ ds, (retimeDoc d.base rd delay d.body).isSome = true) →
      List.Forall₂ (Retimed rd out delay) ds (emittedDocs (runT rd out delay s (ds.map .doc)).2) := by
    intro ds
    induction ds with
    | nil => intro s _ _ _ _ _; exact .nil
    | cons d ds ih =>
      intro s hf hs hn hseen hr
      have hd := hs d List.mem_cons_self
      have h1 : d.sid ≠ out := by rw [hd]; exact hne
      have h2 : checkSeen s.seen d.sid d.num = (true, s.seen.push d.sid d.num) := by
        rw [checkSeen, hd, if_neg (hseen d List.mem_cons_self)]
      obtain ⟨body, hb⟩ := Option.isSome_iff_exists.mp (hr d List.mem_cons_self)
      have hstep : retimeNode rd out delay s (.doc d) =
          (⟨s.seen.push d.sid d.num, some d.sid⟩, .emitted (.doc { d with sid := out, body := body })) := by
        have h3 : s.first.getD d.sid = d.sid := by
          rcases hf with hf | hf <;> simp [hf, hd]
        simp only [retimeNode, if_neg h1, h2, hb]
        simp [h3]
      rw [List.map_cons, runT, hstep]
      simp only [emittedDocs]
      rw [List.map_cons, List.nodup_cons] at hn
      refine .cons ⟨rfl, rfl, rfl, hb⟩ (ih _ (.inr (by simp [hd])) (fun d' h => hs d' (List.mem_cons_of_mem _ h)) hn.2 ?_
        (fun d' h => hr d' (List.mem_cons_of_mem _ h)))
      intro d' hd'
      simp only
      rw [hd, Seen.get_push, if_pos rfl]
      intro hm
      have := List.mem_of_mem_drop hm
      rw [List.mem_append, List.mem_singleton] at this
      rcases this with h | h
      · exact hseen d' (List.mem_cons_of_mem _ hd') h
      · exact hn.1 (by rw [← h]; exact List.mem_map_of_mem hd')
  exact gen ds {} (.inl rfl) hs hn (by simp [Seen.get]) hr

/-- Non-vacuity: two documents come out retimed, the repeat, the own output, and the other sequence do not. -/
example : ((emittedDocs (runT Time.exactReader "o" 3000000 {} [.doc ⟨"a", 1, .clock, exTimed⟩, .msg "m", .doc ⟨"b", 1, .clock, exTimed⟩,
    .doc ⟨"a", 1, .clock, exTimed⟩, .doc ⟨"o", 1, .clock, exTimed⟩, .doc ⟨"a", 2, .media, exUntimed⟩]).2).map (fun d => (d.sid, d.num))) =
    [("o", 1), ("o", 2)] := by decide +kernel

end Verif.Node
