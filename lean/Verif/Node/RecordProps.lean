import Verif.Node.Record
import Verif.Node.RetimeProps

/-! C112: several retiming nodes are one with the sum of the delays, and the documents say so. -/
namespace Verif.Node.Record

open Verif.Doc (Node Att TV Leaf)
open Verif.Time (TimeBase Reader)

/-! ### Specification -/

/-- The record of applied processing of a document. -/
def entriesOf : Option HeadMeta → List Entry
  | some ⟨some m, _⟩ => m.entries
  | _ => []

/-- All other metadata: of the document metadata, and of the head. -/
def othersOf : Option HeadMeta → List String × List String
  | some ⟨some m, o⟩ => (m.others, o)
  | some ⟨none, o⟩ => ([], o)
  | none => ([], [])

/-- What a node notes. -/
def entryOf (now : RNode → Int) (c : RNode) : Entry :=
  { delay := c.delay, generatedBy := "retiming_delay_node_v1.0", sourceId := c.id, applied := now c }

/-- The delays of a record together. -/
def total : List Entry → Int
  | [] => 0
  | e :: es => e.delay + total es

/-- The delays of nodes together. -/
def sumOf : List RNode → Int
  | [] => 0
  | c :: cs => c.delay + sumOf cs

/-- The identifier under which documents leave the last node. -/
def lastOut (first : String) : List RNode → String
  | [] => first
  | c :: cs => lastOut c.out cs

/-- No node is given the documents of its own output by the one before it. -/
def chained (first : String) : List RNode → Prop
  | [] => True
  | c :: cs => first ≠ c.out ∧ chained c.out cs

/-- Begin and end are whole milliseconds, not negative, and with the delay below 100 hours. -/
def fitsAtt (d : Int) (a : Att) : Bool :=
  [a.beg, a.fin].all (fun o => o.all (fun v => decide (v.delta % 1000 = 0 ∧ 0 ≤ v.delta ∧ v.delta + d < 360000000000)))

mutual
/-- The same for all elements. -/
def fits (d : Int) : Node Att → Bool
  | .elem a kids => fitsAtt d a && fitsL d kids
  | _ => true
def fitsL (d : Int) : List (Node Att) → Bool
  | [] => true
  | k :: ks => fits d k && fitsL d ks
end

/-- Delays in whole milliseconds. -/
def Whole (cs : List RNode) : Prop := ∀ c ∈ cs, 0 ≤ c.delay ∧ c.delay % 1000 = 0

/-! ### Retiming twice -/

theorem fitsAtt_parts {d : Int} {a : Att} (h : fitsAtt d a = true) {v : TV} (hv : a.beg = some v ∨ a.fin = some v) :
    v.delta % 1000 = 0 ∧ 0 ≤ v.delta ∧ v.delta + d < 360000000000 := by
  simp only [fitsAtt, List.all_cons, List.all_nil, Bool.and_true, Bool.and_eq_true] at h
  rcases hv with hv | hv
  · have := h.1; rw [hv] at this; simpa using this
  · have := h.2; rw [hv] at this; simpa using this

theorem fitsAtt_of {d : Int} {a : Att}
    (h : ∀ v, a.beg = some v ∨ a.fin = some v → v.delta % 1000 = 0 ∧ 0 ≤ v.delta ∧ v.delta + d < 360000000000) : fitsAtt d a = true := by
  simp only [fitsAtt, List.all_cons, List.all_nil, Bool.and_true, Bool.and_eq_true]
  constructor
  · cases hb : a.beg with
    | none => rfl
    | some v => simpa using h v (.inl hb)
  · cases hb : a.fin with
    | none => rfl
    | some v => simpa using h v (.inr hb)

theorem fin_eq {base : TimeBase} {rd : Reader} (hrd : rd.Accurate) (hb : base ≠ .smpte) {d : Int} (hd : 0 ≤ d)
    (hdm : d % 1000 = 0) {a : Att} (h : fitsAtt d a = true) : shiftOpt base rd d a.fin = some (a.fin.map (mvTV d)) := by
  cases hf : a.fin with
  | none => rfl
  | some v =>
    obtain ⟨m1, m2, m3⟩ := fitsAtt_parts h (.inr hf)
    rw [shiftOpt, shiftTV_eq hrd hb hd hdm m2 m1 m3]; rfl

mutual
theorem retime_fits {base : TimeBase} {rd : Reader} (hrd : rd.Accurate) (hb : base ≠ .smpte) {d : Int} (hd : 0 ≤ d)
    (hdm : d % 1000 = 0) : ∀ (n : Node Att), fits d n = true → retime base rd d n = some (mv d n)
  | .text s, _ => rfl
  | .br, _ => rfl
  | .elem a kids, h => by
    rw [fits, Bool.and_eq_true] at h
    rw [retime, mv, fin_eq hrd hb hd hdm h.1]
    cases hbeg : a.beg with
    | none => simp [retimeL_fits hrd hb hd hdm kids h.2]
    | some v =>
      obtain ⟨m1, m2, m3⟩ := fitsAtt_parts h.1 (.inl hbeg)
      simp [shiftTV_eq hrd hb hd hdm m2 m1 m3]
theorem retimeL_fits {base : TimeBase} {rd : Reader} (hrd : rd.Accurate) (hb : base ≠ .smpte) {d : Int} (hd : 0 ≤ d)
    (hdm : d % 1000 = 0) : ∀ (ns : List (Node Att)), fitsL d ns = true → retimeL base rd d ns = some (mvL d ns)
  | [], _ => rfl
  | k :: ks, h => by
    rw [fitsL, Bool.and_eq_true] at h
    rw [retimeL, mvL, retime_fits hrd hb hd hdm k h.1, Option.bind_some, retimeL_fits hrd hb hd hdm ks h.2, Option.map_some]
end

/-- The retimed body. -/
def moved (d : Int) (n : Node Att) : Node Att :=
  match n with
  | .elem a kids =>
    if untimedLeaf (.elem a kids) = true then .elem { a with beg := some ⟨Time.writeFull d, d⟩, fin := a.fin.map (mvTV d) } kids
    else mv d (.elem a kids)
  | n => n

theorem retimeDoc_fits {rd : Reader} (hrd : rd.Accurate) {base : TimeBase} (hb : base ≠ .smpte) {d : Int} (hd : 0 ≤ d) (hdm : d % 1000 = 0)
    (hd1 : d < 360000000000) {n : Node Att} (hm : fits d n = true) : retimeDoc base rd d n = some (moved d n) := by
  cases n with
  | text s => rfl
  | br => rfl
  | elem a kids =>
    by_cases hu : untimedLeaf (.elem a kids) = true
    · have hu' := hu
      rw [untimedLeaf, Bool.and_eq_true, Option.isNone_iff_eq_none] at hu'
      have hs : stamp base rd d = some ⟨Time.writeFull d, d⟩ := stamp_eq hrd hb hd hdm hd1
      rw [fits, Bool.and_eq_true] at hm
      have hfin := fin_eq hrd hb hd hdm hm.1
      rw [moved, if_pos hu, retimeDoc, if_pos hu, retimeBody.eq_def]
      simp only [hu'.1]
      cases base with
      | smpte => exact absurd rfl hb
      | clock => simp only [hs, hfin, Option.bind_some, Option.map_some]
      | media => simp only [hs, hfin, Option.bind_some, Option.map_some]
    · rw [moved, if_neg hu, retimeDoc, if_neg hu]
      exact retime_fits hrd hb hd hdm _ hm

mutual
theorem retime_smpte (rd : Reader) (d : Int) : ∀ (n : Node Att), retime .smpte rd d n = some n
  | .text s => rfl
  | .br => rfl
  | .elem a kids => by
    have hf : shiftOpt .smpte rd d a.fin = some a.fin := by cases a.fin <;> rfl
    rw [retime, hf, Option.bind_some]
    obtain ⟨kind, id, beg, fin, dur⟩ := a
    cases beg with
    | none => simp [retimeL_smpte rd d kids]
    | some b => simp [shiftTV]
theorem retimeL_smpte (rd : Reader) (d : Int) : ∀ (ns : List (Node Att)), retimeL .smpte rd d ns = some ns
  | [] => rfl
  | k :: ks => by rw [retimeL, retime_smpte rd d k, Option.bind_some, retimeL_smpte rd d ks, Option.map_some]
end

theorem retimeDoc_smpte (rd : Reader) (d : Int) (n : Node Att) : retimeDoc .smpte rd d n = some n := by
  unfold retimeDoc
  split
  · rename_i hu
    cases n with
    | text s => rfl
    | br => rfl
    | elem a kids =>
      rw [untimedLeaf, Bool.and_eq_true, Option.isNone_iff_eq_none] at hu
      rw [retimeBody, hu.1]
  · exact retime_smpte rd d n

theorem mvTV_twice (d e : Int) (v : TV) : mvTV e (mvTV d v) = mvTV (d + e) v := by
  simp only [mvTV, show v.delta + d + e = v.delta + (d + e) by omega]

mutual
theorem mv_twice (d e : Int) : ∀ (n : Node Att), mv e (mv d n) = mv (d + e) n
  | .text s => rfl
  | .br => rfl
  | .elem a kids => by
    have hf : (a.fin.map (mvTV d)).map (mvTV e) = a.fin.map (mvTV (d + e)) := by
      cases a.fin <;> simp [mvTV_twice]
    cases hb : a.beg with
    | none => simp only [mv, hb, hf, mvL_twice d e kids]
    | some b => simp only [mv, hb, hf, mvTV_twice]
theorem mvL_twice (d e : Int) : ∀ (ns : List (Node Att)), mvL e (mvL d ns) = mvL (d + e) ns
  | [] => rfl
  | k :: ks => by rw [mvL, mvL, mvL, mv_twice d e k, mvL_twice d e ks]
end

theorem isSpan_mv (d : Int) (k : Node Att) : Doc.isSpan Att.kind (mv d k) = Doc.isSpan Att.kind k := by
  cases k with
  | text s => rfl
  | br => rfl
  | elem a kids =>
    rw [mv]
    cases a.beg <;> rfl

theorem anySpan_mv (d : Int) : ∀ (ks : List (Node Att)), (mvL d ks).any (Doc.isSpan Att.kind) = ks.any (Doc.isSpan Att.kind)
  | [] => rfl
  | k :: ks => by rw [mvL, List.any_cons, List.any_cons, isSpan_mv, anySpan_mv d ks]

mutual
theorem untimedLeaf_mv (d : Int) : ∀ (n : Node Att), untimedLeaf (mv d n) = untimedLeaf n
  | .text s => rfl
  | .br => rfl
  | .elem a kids => by
    cases hb : a.beg with
    | none => simp only [mv, untimedLeaf, hb, timedLeaf, Leaf, anySpan_mv, untimedLeafL_mv d kids]
    | some b => simp only [mv, untimedLeaf, hb, Option.isNone_some, Bool.false_and]
theorem untimedLeafL_mv (d : Int) : ∀ (ns : List (Node Att)), untimedLeafL (mvL d ns) = untimedLeafL ns
  | [] => rfl
  | k :: ks => by rw [mvL, untimedLeafL, untimedLeafL, untimedLeaf_mv d k, untimedLeafL_mv d ks]
end

theorem moved_twice (d e : Int) (n : Node Att) : moved e (moved d n) = moved (d + e) n := by
  cases n with
  | text s => rfl
  | br => rfl
  | elem a kids =>
    by_cases hu : untimedLeaf (.elem a kids) = true
    · rw [moved.eq_def (d + e), moved.eq_def d]
      simp only [if_pos hu]
      have hf : (a.fin.map (mvTV d)).map (mvTV e) = a.fin.map (mvTV (d + e)) := by
        cases a.fin <;> simp [mvTV_twice]
      rw [moved, if_neg (by simp [untimedLeaf]), mv]
      simp only [hf, mvTV]
    · have key : ∀ m : Node Att, m = mv d (.elem a kids) → moved e m = mv e m := by
        intro m hm
        have hu' : ¬ untimedLeaf m = true := by rw [hm, untimedLeaf_mv]; exact hu
        cases m with
        | text s => rfl
        | br => rfl
        | elem a' kids' => rw [moved, if_neg hu']
      rw [moved.eq_def (d + e), moved.eq_def d]
      simp only [if_neg hu]
      rw [key _ rfl, mv_twice]

mutual
theorem fits_mono {d e : Int} (h : e ≤ d) : ∀ (n : Node Att), fits d n = true → fits e n = true
  | .text s, _ => rfl
  | .br, _ => rfl
  | .elem a kids, hf => by
    rw [fits, Bool.and_eq_true] at hf ⊢
    exact ⟨fitsAtt_of fun v hv => by have := fitsAtt_parts hf.1 hv; omega, fitsL_mono h kids hf.2⟩
theorem fitsL_mono {d e : Int} (h : e ≤ d) : ∀ (ns : List (Node Att)), fitsL d ns = true → fitsL e ns = true
  | [], _ => rfl
  | k :: ks, hf => by
    rw [fitsL, Bool.and_eq_true] at hf ⊢
    exact ⟨fits_mono h k hf.1, fitsL_mono h ks hf.2⟩
end

theorem fitsAtt_mv {d e : Int} (hd : 0 ≤ d) (hdm : d % 1000 = 0) {a : Att} (h : fitsAtt (d + e) a = true) :
    fitsAtt e { a with beg := a.beg.map (mvTV d), fin := a.fin.map (mvTV d) } = true := by
  refine fitsAtt_of fun v hv => ?_
  simp only [Option.map_eq_some_iff] at hv
  rcases hv with ⟨w, hw, rfl⟩ | ⟨w, hw, rfl⟩
  · have := fitsAtt_parts h (.inl hw)
    simp only [mvTV]; omega
  · have := fitsAtt_parts h (.inr hw)
    simp only [mvTV]; omega

mutual
theorem fits_mv {d e : Int} (hd : 0 ≤ d) (hdm : d % 1000 = 0) : ∀ (n : Node Att), fits (d + e) n = true → fits e (mv d n) = true
  | .text s, _ => rfl
  | .br, _ => rfl
  | .elem a kids, hf => by
    rw [fits, Bool.and_eq_true] at hf
    have ha := fitsAtt_mv hd hdm hf.1
    cases hb : a.beg with
    | none =>
      rw [hb] at ha
      rw [mv]
      simp only [hb]
      rw [fits, Bool.and_eq_true]
      refine ⟨?_, fitsL_mv hd hdm kids hf.2⟩
      simpa [fitsAtt, hb] using ha
    | some b =>
      rw [hb] at ha
      rw [mv]
      simp only [hb]
      rw [fits, Bool.and_eq_true]
      exact ⟨ha, fitsL_mono (by omega) kids hf.2⟩
theorem fitsL_mv {d e : Int} (hd : 0 ≤ d) (hdm : d % 1000 = 0) : ∀ (ns : List (Node Att)), fitsL (d + e) ns = true → fitsL e (mvL d ns) = true
  | [], _ => rfl
  | k :: ks, hf => by
    rw [fitsL, Bool.and_eq_true] at hf
    rw [mvL, fitsL, Bool.and_eq_true]
    exact ⟨fits_mv hd hdm k hf.1, fitsL_mv hd hdm ks hf.2⟩
end

theorem fits_moved {d e : Int} (hd : 0 ≤ d) (hdm : d % 1000 = 0) (h1 : d + e < 360000000000) (n : Node Att)
    (hf : fits (d + e) n = true) : fits e (moved d n) = true := by
  cases n with
  | text s => rfl
  | br => rfl
  | elem a kids =>
    rw [moved]
    split
    · rw [fits, Bool.and_eq_true] at hf ⊢
      have ha := fitsAtt_mv hd hdm hf.1
      refine ⟨?_, fitsL_mono (by omega) kids hf.2⟩
      refine fitsAtt_of fun v hv => ?_
      rcases hv with hv | hv
      · simp only [Option.some.injEq] at hv
        subst hv
        simp only
        omega
      · exact fitsAtt_parts ha (.inr hv)
    · exact fits_mv hd hdm _ hf

/-- A body can be retimed by `d`. -/
def Fits (base : TimeBase) (d : Int) (n : Node Att) : Prop := base = .smpte ∨ (d < 360000000000 ∧ fits d n = true)

/-- **C112**  Retiming by one delay and then by another gives, character by character, what retiming by both together gives. -/
theorem C112_retimed_twice_partial (rd : Reader) (hrd : rd.Accurate) (base : TimeBase) (d e : Int) (hd : 0 ≤ d ∧ d % 1000 = 0)
    (he : 0 ≤ e ∧ e % 1000 = 0) (n : Node Att) (h : Fits base (d + e) n) :
    ∃ m, retimeDoc base rd d n = some m ∧ Fits base e m ∧ (retimeDoc base rd (d + e) n).isSome = true ∧
      retimeDoc base rd e m = retimeDoc base rd (d + e) n := by
  rcases h with rfl | ⟨h1, h2⟩
  · exact ⟨n, retimeDoc_smpte rd d n, .inl rfl, by rw [retimeDoc_smpte]; rfl, by rw [retimeDoc_smpte, retimeDoc_smpte]⟩
  · by_cases hb : base = .smpte
    · subst hb
      exact ⟨n, retimeDoc_smpte rd d n, .inl rfl, by rw [retimeDoc_smpte]; rfl, by rw [retimeDoc_smpte, retimeDoc_smpte]⟩
    · have hf := fits_moved hd.1 hd.2 h1 n h2
      have hs := retimeDoc_fits hrd hb (by omega : 0 ≤ d + e) (by omega) h1 h2
      refine ⟨moved d n, retimeDoc_fits hrd hb hd.1 hd.2 (by omega) (fits_mono (by omega) n h2), .inr ⟨by omega, hf⟩, by rw [hs]; rfl, ?_⟩
      rw [retimeDoc_fits hrd hb he.1 he.2 (by omega) hf, hs, moved_twice]

/-! ### The record -/

theorem entriesOf_noted (c : RNode) (now : Int) (info : Option HeadMeta) :
    entriesOf (some (noted c now info)) =
      entriesOf info ++ [{ delay := c.delay, generatedBy := "retiming_delay_node_v1.0", sourceId := c.id, applied := now }] := by
  cases info with
  | none => rfl
  | some h =>
    obtain ⟨m, o⟩ := h
    cases m <;> rfl

theorem othersOf_noted (c : RNode) (now : Int) (info : Option HeadMeta) : othersOf (some (noted c now info)) = othersOf info := by
  cases info with
  | none => rfl
  | some h =>
    obtain ⟨m, o⟩ := h
    cases m <;> rfl

/-- What a node emits for a document. -/
theorem recordNode_emits {rd : Reader} {c : RNode} {s s' : TState} {now : Int} {d : RDoc} {o : RIn}
    (h : recordNode rd c s now (.doc d) = (s', .emitted o)) :
    ∃ body, retimeDoc d.doc.base rd c.delay d.doc.body = some body ∧
      o = .doc { doc := { d.doc with sid := c.out, body := body }, info := some (noted c now d.info) } := by
  simp only [recordNode] at h
  split at h
  · cases h
  · split at h
    · split at h
      · cases h
      · cases hr : retimeDoc d.doc.base rd c.delay d.doc.body with
        | none => rw [hr] at h; cases h
        | some body =>
          rw [hr] at h
          injection h with _ h
          injection h with h
          exact ⟨body, rfl, h.symm⟩
    · cases h

/-- The body retimed by each node in turn. -/
def retimeBy (base : TimeBase) (rd : Reader) : List RNode → Node Att → Option (Node Att)
  | [], n => some n
  | c :: cs, n => (retimeDoc base rd c.delay n).bind (retimeBy base rd cs)

/-- What comes out of the last node for a document. -/
theorem passOn_emits {rd : Reader} {now : RNode → Int} : ∀ {cs : List (RNode × TState)} {d : RDoc} {o : RIn},
    (passOn rd now cs (.doc d)).2 = some o →
    ∃ o', o = .doc o' ∧ o'.doc.num = d.doc.num ∧ o'.doc.base = d.doc.base ∧ o'.doc.sid = lastOut d.doc.sid (cs.map (·.1)) ∧
      entriesOf o'.info = entriesOf d.info ++ (cs.map (·.1)).map (entryOf now) ∧ othersOf o'.info = othersOf d.info ∧
      retimeBy d.doc.base rd (cs.map (·.1)) d.doc.body = some o'.doc.body
  | [], d, o, h => by
    injection h with h
    exact ⟨d, h.symm, rfl, rfl, rfl, by simp, rfl, rfl⟩
  | (c, s) :: cs, d, o, h => by
    rw [passOn] at h
    split at h
    · rename_i s' o1 he
      obtain ⟨body, hb, rfl⟩ := recordNode_emits he
      obtain ⟨o', h1, h2, h3, h4, h5, h6, h7⟩ := passOn_emits h
      refine ⟨o', h1, h2, h3, h4, ?_, by rw [h6, othersOf_noted], ?_⟩
      · rw [h5, entriesOf_noted, List.append_assoc]
        rfl
      · rw [List.map_cons, retimeBy, hb, Option.bind_some]
        exact h7
    · cases h

theorem passOn_msg {rd : Reader} {now : RNode → Int} {m : String} : ∀ (cs : List (RNode × TState)),
    passOn rd now cs (.msg m) = (cs, some (.msg m))
  | [] => rfl
  | (c, s) :: cs => by
    rw [passOn]
    simp only [recordNode, passOn_msg cs]

theorem passOn_nodes {rd : Reader} {now : RNode → Int} : ∀ (cs : List (RNode × TState)) (i : RIn),
    (passOn rd now cs i).1.map (·.1) = cs.map (·.1)
  | [], _ => rfl
  | (c, s) :: cs, i => by
    rw [passOn]
    split
    · simp [passOn_nodes cs]
    · simp

theorem fresh_nodes (cs : List RNode) : (fresh cs).map (·.1) = cs := by
  simp [fresh, Function.comp_def]

theorem passAll_get {rd : Reader} : ∀ {cs : List (RNode × TState)} {es : List (RIn × (RNode → Int))} {k : Nat} {e : RIn × (RNode → Int)}
    {o : Option RIn}, es[k]? = some e → (passAll rd cs es)[k]? = some o →
    ∃ cs' : List (RNode × TState), cs'.map (·.1) = cs.map (·.1) ∧ (passOn rd e.2 cs' e.1).2 = o
  | cs, [], k, e, o, h, _ => by simp at h
  | cs, e0 :: es, 0, e, o, h, ho => by
    simp only [List.getElem?_cons_zero, Option.some.injEq, passAll] at h ho
    subst h
    exact ⟨cs, rfl, ho⟩
  | cs, e0 :: es, k + 1, e, o, h, ho => by
    simp only [List.getElem?_cons_succ, passAll] at h ho
    obtain ⟨cs', h1, h2⟩ := passAll_get h ho
    exact ⟨cs', by rw [h1, passOn_nodes], h2⟩

/-- **C112**  Behind any number of retiming nodes, whatever was delivered before: a document that comes out is the delivered one
under the identifier of the last node, with its number, with exactly one entry for each node added at the end of its record of
applied processing, in the order of the nodes, with the node's name and delay and the time it was applied, and with all its other
metadata. Messages always come out, as they are. -/
theorem C112_one_entry_each (rd : Reader) (cs : List RNode) (es : List (RIn × (RNode → Int))) (k : Nat) (now : RNode → Int) :
    (∀ m, es[k]? = some (.msg m, now) → (passAll rd (fresh cs) es)[k]? = some (some (.msg m))) ∧
    (∀ d o, es[k]? = some (.doc d, now) → (passAll rd (fresh cs) es)[k]? = some (some o) →
      ∃ o', o = .doc o' ∧ o'.doc.num = d.doc.num ∧ o'.doc.base = d.doc.base ∧ o'.doc.sid = lastOut d.doc.sid cs ∧
        entriesOf o'.info = entriesOf d.info ++ cs.map (fun c =>
          { delay := c.delay, generatedBy := "retiming_delay_node_v1.0", sourceId := c.id, applied := now c }) ∧
        othersOf o'.info = othersOf d.info) := by
  constructor
  · intro m he
    have hlen : (passAll rd (fresh cs) es).length = es.length := by
      have : ∀ (es : List (RIn × (RNode → Int))) (ns : List (RNode × TState)), (passAll rd ns es).length = es.length := by
        intro es
        induction es with
        | nil => intro ns; rfl
        | cons e es ih => intro ns; simp [passAll, ih]
      exact this es _
    obtain ⟨hk, _⟩ := List.getElem?_eq_some_iff.mp he
    obtain ⟨o, ho⟩ : ∃ o, (passAll rd (fresh cs) es)[k]? = some o := ⟨_, List.getElem?_eq_getElem (by rw [hlen]; exact hk)⟩
    obtain ⟨cs', _, h2⟩ := passAll_get he ho
    rw [passOn_msg] at h2
    rw [ho, ← h2]
  · intro d o he ho
    obtain ⟨cs', h1, h2⟩ := passAll_get he ho
    obtain ⟨o', g1, g2, g3, g4, g5, g6, _⟩ := passOn_emits h2
    rw [h1, fresh_nodes] at g4 g5
    exact ⟨o', g1, g2, g3, g4, g5, g6⟩

/-! ### The sum of the delays -/

theorem sumOf_whole : ∀ {l : List RNode}, Whole l → 0 ≤ sumOf l ∧ sumOf l % 1000 = 0
  | [], _ => by simp [sumOf]
  | x :: xs, h => by
    have h1 := h x List.mem_cons_self
    have h2 := sumOf_whole (l := xs) (fun y hy => h y (List.mem_cons_of_mem _ hy))
    rw [sumOf]; omega

theorem retimeBy_sum {rd : Reader} (hrd : rd.Accurate) {base : TimeBase} : ∀ {c : RNode} {cs : List RNode} {n : Node Att},
    Whole (c :: cs) → Fits base (sumOf (c :: cs)) n →
    retimeBy base rd (c :: cs) n = retimeDoc base rd (sumOf (c :: cs)) n ∧ (retimeDoc base rd (sumOf (c :: cs)) n).isSome = true
  | c, [], n, hw, hf => by
    have hs : sumOf [c] = c.delay := by simp [sumOf]
    have hc := hw c List.mem_cons_self
    rw [hs] at hf ⊢
    obtain ⟨m, h1, _, h3, h4⟩ := C112_retimed_twice_partial rd hrd base c.delay 0 hc (by omega) n (by rw [Int.add_zero]; exact hf)
    rw [Int.add_zero] at h3
    refine ⟨?_, h3⟩
    rw [retimeBy, h1, Option.bind_some]; rfl
  | c, c' :: cs, n, hw, hf => by
    have hc := hw c List.mem_cons_self
    have hw' : Whole (c' :: cs) := fun x hx => hw x (List.mem_cons_of_mem _ hx)
    have hsum : 0 ≤ sumOf (c' :: cs) ∧ sumOf (c' :: cs) % 1000 = 0 := (sumOf_whole hw')
    rw [sumOf] at hf ⊢
    obtain ⟨m, h1, h2, h3, h4⟩ := C112_retimed_twice_partial rd hrd base c.delay _ hc hsum n hf
    obtain ⟨g1, _⟩ := retimeBy_sum hrd hw' h2
    refine ⟨?_, h3⟩
    rw [retimeBy, h1, Option.bind_some, g1, h4]

theorem fits_movable (d : Int) (n : Node Att) : movableIn d n = true → fits d n = true := by
  refine Node.rec (motive_1 := fun n => movableIn d n = true → fits d n = true)
    (motive_2 := fun ns => movableInL d ns = true → fitsL d ns = true) ?_ ?_ ?_ ?_ ?_ n
  · intro s _; rfl
  · intro _; rfl
  · intro a kids ih h
    rw [movableIn, Bool.and_eq_true] at h
    rw [fits, Bool.and_eq_true]
    exact ⟨fitsAtt_of (movable_parts h.1).1, ih h.2⟩
  · intro _; rfl
  · intro x xs ih1 ih2 h
    rw [movableInL, Bool.and_eq_true] at h
    rw [fitsL, Bool.and_eq_true]
    exact ⟨ih1 h.1, ih2 h.2⟩

theorem total_append (a b : List Entry) : total (a ++ b) = total a + total b := by
  induction a with
  | nil => simp [total]
  | cons x xs ih => simp only [List.cons_append, total, ih]; omega

theorem total_entries (now : RNode → Int) (cs : List RNode) : total (cs.map (entryOf now)) = sumOf cs := by
  induction cs with
  | nil => rfl
  | cons c cs ih => rw [List.map_cons, total, sumOf, ih]; rfl

/-- **C112**  What a document that comes out shows is shown later by what has been added to its record: at every instant it shows
what the delivered document showed so much earlier. Missing: what C37_shown_later_partial is missing. -/
theorem C112_record_tells_delay_partial (rd : Reader) (hrd : rd.Accurate) (c0 : RNode) (cs : List RNode) (hw : Whole (c0 :: cs))
    (hpos : 0 < sumOf (c0 :: cs)) (h100 : sumOf (c0 :: cs) < 360000000000) (es : List (RIn × (RNode → Int))) (k : Nat)
    (now : RNode → Int) (d o : RDoc) (he : es[k]? = some (.doc d, now))
    (ho : (passAll rd (fresh (c0 :: cs)) es)[k]? = some (some (.doc o)))
    (hb : d.doc.base ≠ .smpte) (a : Att) (kids : List (Node Att)) (hbody : d.doc.body = .elem a kids) (hk : a.kind = .body)
    (hsh : Doc.shaped (.elem a kids) = true) (hm : movableIn (sumOf (c0 :: cs)) (.elem a kids) = true)
    (hdur : Doc.eff a.dur = none ∨ a.beg.isSome = true) :
    ∃ later : Int, total (entriesOf o.info) = total (entriesOf d.info) + later ∧ 0 < later ∧
      ∀ avail, ∃ v v', Doc.validateDoc (max (avail - later) 0) d.doc.body = .ok v ∧ Doc.validateDoc avail o.doc.body = .ok v' ∧
        ∀ t, Doc.shownAt v' (t + later) = Doc.shownAt v t := by
  obtain ⟨cs', h1, h2⟩ := passAll_get he ho
  obtain ⟨o', g1, _, _, _, g5, _, g7⟩ := passOn_emits h2
  injection g1 with g1
  subst g1
  rw [h1, fresh_nodes] at g5 g7
  refine ⟨sumOf (c0 :: cs), by rw [g5, total_append, total_entries], hpos, fun avail => ?_⟩
  have hs : sumOf (c0 :: cs) % 1000 = 0 := (sumOf_whole hw).2
  rw [hbody] at g7 ⊢
  rw [(retimeBy_sum hrd hw (.inr ⟨h100, fits_movable _ _ hm⟩)).1] at g7
  obtain ⟨r, v, v', q1, q2, q3, q4⟩ := C37_shown_later_partial rd hrd d.doc.base hb (sumOf (c0 :: cs)) avail hpos hs h100 a kids hk hsh hm
    (hdur.imp id .inl)
  rw [q1] at g7
  injection g7 with g7
  subst g7
  exact ⟨v, v', q2, q3, q4⟩

/-! ### The nodes together -/

/-- The state of a later node, given that of the first: it has seen what the first has emitted. -/
def Behind (S : TState) (prev : String) (s : TState) : Prop :=
  match S.first with
  | none => s.first = none ∧ s.seen.get prev = []
  | some sid => s.first = some prev ∧ s.seen.get prev = S.seen.get sid

/-- The same for all later nodes. -/
def AllBehind (S : TState) : String → List (RNode × TState) → Prop
  | _, [] => True
  | prev, (c, s) :: cs => Behind S prev s ∧ AllBehind S c.out cs

/-- Until a first document is taken nothing has been seen. -/
def Clean (S : TState) : Prop := S.first = none → ∀ sid, S.seen.get sid = []

/-- The state of a node that has taken document `n` of `sid`. -/
def took (S : TState) (sid : String) (n : Nat) : TState := { seen := S.seen.push sid n, first := some sid }

/-- A document that the first node takes is taken by all. -/
theorem passOn_taken {rd : Reader} (hrd : rd.Accurate) {now : RNode → Int} {S : TState} {sid : String} {n : Nat}
    (hS : S.first = none ∨ S.first = some sid) (hc : Clean S) (hn : n ∉ S.seen.get sid) :
    ∀ (cs : List (RNode × TState)) (d : RDoc), d.doc.num = n → chained d.doc.sid (cs.map (·.1)) → Whole (cs.map (·.1)) →
      Fits d.doc.base (sumOf (cs.map (·.1))) d.doc.body → AllBehind S d.doc.sid cs →
      (∃ o, (passOn rd now cs (.doc d)).2 = some (.doc o)) ∧
        AllBehind (took S sid n) d.doc.sid (passOn rd now cs (.doc d)).1
  | [], d, _, _, _, _, _ => ⟨⟨d, rfl⟩, trivial⟩
  | (c, s) :: cs, d, hd, hch, hw, hf, hb => by
    obtain ⟨hb1, hb2⟩ := hb
    obtain ⟨hc1, hc2⟩ := hch
    have hw1 := hw c (by simp)
    have hw2 : Whole (cs.map (·.1)) := fun x hx => hw x (by simp only [List.map_cons]; exact List.mem_cons_of_mem _ hx)
    have hsum : 0 ≤ sumOf (cs.map (·.1)) ∧ sumOf (cs.map (·.1)) % 1000 = 0 := (sumOf_whole hw2)
    rw [List.map_cons, sumOf] at hf
    obtain ⟨m, r1, r2, _, _⟩ := C112_retimed_twice_partial rd hrd d.doc.base c.delay _ hw1 hsum d.doc.body hf
    have hseen : s.seen.get d.doc.sid = S.seen.get sid ∧ s.first.getD d.doc.sid = d.doc.sid := by
      unfold Behind at hb1
      rcases hS with h | h
      · rw [h] at hb1
        simp only at hb1
        exact ⟨by rw [hb1.2, hc h sid], by rw [hb1.1]; rfl⟩
      · rw [h] at hb1
        simp only at hb1
        exact ⟨hb1.2, by rw [hb1.1]; rfl⟩
    have hstep : recordNode rd c s (now c) (.doc d) = ({ seen := s.seen.push d.doc.sid d.doc.num, first := some d.doc.sid },
        .emitted (.doc { doc := { d.doc with sid := c.out, body := m }, info := some (noted c (now c) d.info) })) := by
      have hck : checkSeen s.seen d.doc.sid d.doc.num = (true, s.seen.push d.doc.sid d.doc.num) := by
        rw [checkSeen, if_neg (by rw [hseen.1, hd]; exact hn)]
      simp only [recordNode, if_neg hc1, hck, r1]
      simp [hseen.2]
    have ih := passOn_taken hrd (now := now) hS hc hn cs { doc := { d.doc with sid := c.out, body := m }, info := some (noted c (now c) d.info) }
      hd hc2 hw2 r2 hb2
    rw [passOn, hstep]
    refine ⟨ih.1, ?_, ih.2⟩
    unfold Behind
    simp only [took]
    refine ⟨trivial, ?_⟩
    rw [Seen.get_push, if_pos rfl, Seen.get_push, if_pos rfl, hseen.1, hd]

/-- What an observer sees of a delivery: the document that comes out, or the message, or nothing. -/
inductive Seen1 where
  | doc (sid : String) (num : Nat) (base : TimeBase) (body : Node Att)
  | msg (m : String)
  | nothing

/-- Behind the nodes. -/
def seenBehind : Option RIn → Seen1
  | some (.doc o) => .doc o.doc.sid o.doc.num o.doc.base o.doc.body
  | some (.msg m) => .msg m
  | none => .nothing

/-- Behind a single node as `Verif.Node.retimeNode` has it; documents are given the identifier `sid`. -/
def seenAs (sid : String) : TRes → Seen1
  | .emitted (.doc o) => .doc sid o.num o.base o.body
  | .emitted (.msg m) => .msg m
  | _ => .nothing

/-- A delivery without its metadata. -/
def plain : RIn → TIn
  | .doc d => .doc d.doc
  | .msg m => .msg m

theorem plain_doc (d : RDoc) : plain (.doc d) = .doc d.doc := rfl
theorem plain_msg (m : String) : plain (.msg m) = .msg m := rfl

/-- **C112**  Retiming nodes one behind the other, none of which has the identifier of the one before, do what a single one does whose
delay is the sum of theirs, under the identifier of the last, for any series of documents of any sequences and messages: the same
documents come out for the same deliveries, character by character. Missing: the delays and times are whole milliseconds and with the
delays below 100 hours. -/
theorem C112_chain_is_one_node_partial (rd : Reader) (hrd : rd.Accurate) (c0 : RNode) (cs : List RNode) (hw : Whole (c0 :: cs))
    (hch : chained c0.out cs) (es : List (RIn × (RNode → Int)))
    (hf : ∀ d now, (RIn.doc d, now) ∈ es → Fits d.doc.base (sumOf (c0 :: cs)) d.doc.body) :
    (passAll rd (fresh (c0 :: cs)) es).map seenBehind =
      (runT rd c0.out (sumOf (c0 :: cs)) {} (es.map (fun e => plain e.1))).2.map (seenAs (lastOut c0.out cs)) := by
  have gen : ∀ (es : List (RIn × (RNode → Int))) (S : TState) (ns : List (RNode × TState)), ns.map (·.1) = cs → Clean S →
      AllBehind S c0.out ns → (∀ d now, (RIn.doc d, now) ∈ es → Fits d.doc.base (sumOf (c0 :: cs)) d.doc.body) →
      (passAll rd ((c0, S) :: ns) es).map seenBehind =
        (runT rd c0.out (sumOf (c0 :: cs)) S (es.map (fun e => plain e.1))).2.map (seenAs (lastOut c0.out cs)) := by
    intro es
    induction es with
    | nil => intro S ns _ _ _ _; rfl
    | cons e es ih =>
      intro S ns hns hcl hb hf
      have hf' : ∀ d now, (RIn.doc d, now) ∈ es → Fits d.doc.base (sumOf (c0 :: cs)) d.doc.body :=
        fun d now h => hf d now (List.mem_cons_of_mem _ h)
      obtain ⟨i, now⟩ := e
      cases i with
      | msg m =>
        rw [passAll, List.map_cons, List.map_cons, runT]
        simp only [passOn_msg, plain_msg, retimeNode, List.map_cons, seenBehind, seenAs]
        rw [ih S ns hns hcl hb hf']
      | doc d =>
        rw [passAll, List.map_cons, List.map_cons, runT]
        simp only [plain_doc, List.map_cons]
        by_cases h1 : d.doc.sid = c0.out
        · have e1 : recordNode rd c0 S (now c0) (.doc d) = (S, .otherSequence d) := by simp only [recordNode, if_pos h1]
          have e2 : retimeNode rd c0.out (sumOf (c0 :: cs)) S (.doc d.doc) = (S, .otherSequence) := by simp only [retimeNode, if_pos h1]
          rw [passOn, e1, e2]
          simp only [seenBehind, seenAs]
          rw [ih S ns hns hcl hb hf']
        · by_cases h2 : d.doc.num ∈ S.seen.get d.doc.sid
          · have hck : checkSeen S.seen d.doc.sid d.doc.num = (false, S.seen) := by rw [checkSeen, if_pos h2]
            have e1 : recordNode rd c0 S (now c0) (.doc d) = (S, .duplicate d) := by
              simp only [recordNode, if_neg h1, hck]; simp
            have e2 : retimeNode rd c0.out (sumOf (c0 :: cs)) S (.doc d.doc) = (S, .duplicate) := by
              simp only [retimeNode, if_neg h1, hck]; simp
            rw [passOn, e1, e2]
            simp only [seenBehind, seenAs]
            rw [ih S ns hns hcl hb hf']
          · have hck : checkSeen S.seen d.doc.sid d.doc.num = (true, S.seen.push d.doc.sid d.doc.num) := by rw [checkSeen, if_neg h2]
            by_cases h3 : S.first.getD d.doc.sid = d.doc.sid
            · have hfit := hf d now List.mem_cons_self
              obtain ⟨m, r1, r2, r3, r4⟩ := C112_retimed_twice_partial rd hrd d.doc.base c0.delay (sumOf cs) (hw c0 List.mem_cons_self)
                (sumOf_whole (fun x hx => hw x (List.mem_cons_of_mem _ hx))) d.doc.body hfit
              obtain ⟨q1, q2⟩ := retimeBy_sum hrd hw hfit
              obtain ⟨body, hbody⟩ := Option.isSome_iff_exists.mp q2
              have hS : S.first = none ∨ S.first = some d.doc.sid := by
                cases hfst : S.first with
                | none => exact .inl rfl
                | some x => rw [hfst] at h3; exact .inr (by simpa using h3)
              have e1 : recordNode rd c0 S (now c0) (.doc d) = (took S d.doc.sid d.doc.num,
                  .emitted (.doc { doc := { d.doc with sid := c0.out, body := m }, info := some (noted c0 (now c0) d.info) })) := by
                simp only [recordNode, if_neg h1, hck, r1]; simp [h3, took]
              have e2 : retimeNode rd c0.out (sumOf (c0 :: cs)) S (.doc d.doc) = (took S d.doc.sid d.doc.num,
                  .emitted (.doc { d.doc with sid := c0.out, body := body })) := by
                simp only [retimeNode, if_neg h1, hck, hbody]; simp [h3, took]
              obtain ⟨⟨o, ho⟩, hb'⟩ := passOn_taken hrd (now := now) hS hcl h2 ns
                { doc := { d.doc with sid := c0.out, body := m }, info := some (noted c0 (now c0) d.info) } rfl (by rw [hns]; exact hch)
                (by rw [hns]; exact fun x hx => hw x (List.mem_cons_of_mem _ hx)) (by rw [hns]; exact r2) hb
              obtain ⟨o', g1, g2, g3, g4, _, _, g7⟩ := passOn_emits ho
              injection g1 with g1
              subst g1
              rw [hns] at g4 g7
              have hbd : o.doc.body = body := by
                rw [retimeBy, r1, Option.bind_some, g7, hbody] at q1
                injection q1
              rw [passOn, e1, e2]
              simp only [ho, seenBehind, seenAs]
              rw [g2, g3, g4, hbd, ih _ _ (by rw [passOn_nodes, hns]) (by intro h; cases h) hb' hf']
            · have e1 : recordNode rd c0 S (now c0) (.doc d) = ({ S with seen := S.seen.push d.doc.sid d.doc.num }, .otherSequence d) := by
                simp only [recordNode, if_neg h1, hck]; simp [h3]
              have e2 : retimeNode rd c0.out (sumOf (c0 :: cs)) S (.doc d.doc) =
                  ({ S with seen := S.seen.push d.doc.sid d.doc.num }, .otherSequence) := by
                simp only [retimeNode, if_neg h1, hck]; simp [h3]
              obtain ⟨x, hx, hxne⟩ : ∃ x, S.first = some x ∧ x ≠ d.doc.sid := by
                cases hfst : S.first with
                | none => rw [hfst] at h3; exact absurd rfl h3
                | some x => rw [hfst] at h3; exact ⟨x, rfl, h3⟩
              rw [passOn, e1, e2]
              simp only [seenBehind, seenAs]
              rw [ih _ ns hns (by intro h; rw [hx] at h; cases h) ?_ hf']
              have keep : ∀ (ns : List (RNode × TState)) (prev : String), AllBehind S prev ns →
                  AllBehind { S with seen := S.seen.push d.doc.sid d.doc.num } prev ns := by
                intro ns
                induction ns with
                | nil => intro _ _; trivial
                | cons q qs ihq =>
                  intro prev hq
                  refine ⟨?_, ihq _ hq.2⟩
                  have := hq.1
                  unfold Behind at this ⊢
                  rw [hx] at this
                  simp only [hx] at this ⊢
                  rw [Seen.get_push, if_neg hxne]
                  exact this
              exact keep ns _ hb
  refine gen es {} (fresh cs) (fresh_nodes cs) (fun _ _ => rfl) ?_ hf
  have : ∀ (l : List RNode) (prev : String), AllBehind {} prev (fresh l) := by
    intro l
    induction l with
    | nil => intro _; trivial
    | cons x xs ih => intro prev; exact ⟨⟨rfl, rfl⟩, ih _⟩
  exact this cs _

/-! ### Documents that do not come out -/

/-- **C112**  A document that a node refuses, as seen before or as one of another sequence, is left as it was. One that it takes is emitted
or changed in place: with a time that cannot be written it has the identifier of the node's output and the entry in its record. -/
theorem C112_refused_untouched (rd : Reader) (c : RNode) (s : TState) (now : Int) (d : RDoc) :
    (∀ left, (recordNode rd c s now (.doc d)).2 = .duplicate left ∨ (recordNode rd c s now (.doc d)).2 = .otherSequence left → left = d) ∧
    (∀ sid info, (recordNode rd c s now (.doc d)).2 = .failed sid info → retimeDoc d.doc.base rd c.delay d.doc.body = none ∧ sid = c.out ∧
      entriesOf info = entriesOf d.info ++
        [{ delay := c.delay, generatedBy := "retiming_delay_node_v1.0", sourceId := c.id, applied := now }] ∧
      othersOf info = othersOf d.info) := by
  simp only [recordNode]
  split
  · simp
  · split
    · split
      · simp
      · cases hr : retimeDoc d.doc.base rd c.delay d.doc.body with
        | some body => simp
        | none =>
          simp only [RRes.failed.injEq, reduceCtorEq, or_self, false_imp_iff, implies_true, true_and]
          rintro sid info ⟨rfl, rfl⟩
          exact ⟨rfl, entriesOf_noted c now d.info, othersOf_noted c now d.info⟩
    · simp

/-! ### Examples -/

/-- Two nodes, and a document with a record and other metadata. -/
def exNodes : List RNode := [⟨"n1", "o1", 2000000⟩, ⟨"n2", "o2", 1000000⟩]
def exOld : Entry := ⟨0, "author", "a", 7⟩
def exRDoc (sid : String) (num : Nat) : RDoc :=
  { doc := ⟨sid, num, .clock, exTimed⟩, info := some { docMeta := some { entries := [exOld], others := ["title"] }, others := ["agent"] } }
def exBare (sid : String) (num : Nat) : RDoc := { doc := ⟨sid, num, .media, exUntimed⟩, info := none }
def exNow (t : Int) : RNode → Int := fun c => if c.id = "n1" then t else t + 5
def exRun : List (RIn × (RNode → Int)) :=
  [(.doc (exRDoc "a" 1), exNow 100), (.msg "m", exNow 200), (.doc (exRDoc "a" 1), exNow 300), (.doc (exRDoc "b" 1), exNow 400),
    (.doc (exBare "a" 2), exNow 500)]

/-- Number, identifier and record of what comes out. -/
def brief : Option RIn → Option (Option (Nat × String × List Entry))
  | some (.doc o) => some (some (o.doc.num, o.doc.sid, entriesOf o.info))
  | some (.msg _) => some none
  | none => none

set_option synthInstance.maxSize 1000 in
example : (passAll Time.exactReader (fresh exNodes) exRun).map brief =
    [some (some (1, "o2", [exOld, ⟨2000000, "retiming_delay_node_v1.0", "n1", 100⟩, ⟨1000000, "retiming_delay_node_v1.0", "n2", 105⟩])), some none,
      none, none, some (some (2, "o2", [⟨2000000, "retiming_delay_node_v1.0", "n1", 500⟩, ⟨1000000, "retiming_delay_node_v1.0", "n2", 505⟩]))] := by
  decide +kernel

theorem exWhole : Whole exNodes := by
  intro c hc
  simp only [exNodes, List.mem_cons, List.not_mem_nil, or_false] at hc
  rcases hc with rfl | rfl <;> decide

/-- Non-vacuity of `C112_chain_is_one_node_partial`. -/
example : (passAll Time.exactReader (fresh exNodes) exRun).map seenBehind =
    (runT Time.exactReader "o1" 3000000 {} (exRun.map (fun e => plain e.1))).2.map (seenAs "o2") := by
  refine C112_chain_is_one_node_partial Time.exactReader Time.exactReader_accurate ⟨"n1", "o1", 2000000⟩ [⟨"n2", "o2", 1000000⟩] exWhole
    ⟨by decide, trivial⟩ exRun ?_
  intro d now h
  simp only [exRun, List.mem_cons, Prod.mk.injEq, List.not_mem_nil, or_false, reduceCtorEq, false_and, RIn.doc.injEq, false_or] at h
  rcases h with ⟨rfl, _⟩ | ⟨rfl, _⟩ | ⟨rfl, _⟩ | ⟨rfl, _⟩ <;> exact .inr ⟨by decide, by decide +kernel⟩

/-- Non-vacuity of `C112_record_tells_delay_partial`: the first document of the series comes out three seconds later. -/
example : ∃ o : RDoc, (passAll Time.exactReader (fresh exNodes) exRun)[0]? = some (some (.doc o)) ∧
    total (entriesOf o.info) = 3000000 ∧
    ∀ avail, ∃ v v', Doc.validateDoc (max (avail - 3000000) 0) exTimed = .ok v ∧ Doc.validateDoc avail o.doc.body = .ok v' ∧
      ∀ t, Doc.shownAt v' (t + 3000000) = Doc.shownAt v t := by
  have h : (match (passAll Time.exactReader (fresh exNodes) exRun)[0]? with
      | some (some (.doc _)) => true
      | _ => false) = true := by decide +kernel
  split at h
  · rename_i o ho
    obtain ⟨l, h1, h2, h3⟩ := C112_record_tells_delay_partial Time.exactReader Time.exactReader_accurate ⟨"n1", "o1", 2000000⟩
      [⟨"n2", "o2", 1000000⟩] exWhole (by decide) (by decide) exRun 0 (exNow 100) (exRDoc "a" 1) o rfl ho
      (by decide) { kind := .body } exDivs rfl rfl (by decide) (by decide +kernel) (.inl rfl)
    obtain ⟨_, e2⟩ := C112_one_entry_each Time.exactReader exNodes exRun 0 (exNow 100)
    obtain ⟨o', e3, _, _, _, e4, _⟩ := e2 (exRDoc "a" 1) (.doc o) rfl ho
    injection e3 with e3
    subst e3
    have ht : total (entriesOf o.info) = 3000000 := by rw [e4]; decide
    have hl : l = 3000000 := by
      have h0 : total (entriesOf (exRDoc "a" 1).info) = 0 := by decide
      omega
    subst hl
    exact ⟨o, ho, ht, h3⟩
  · cases h

/-! ### Where it fails -/

/-- Below the millisecond nothing is moved by either of two delays, whereas both together move by a millisecond. -/
theorem C112_false_below_millisecond :
    ((retimeDoc .media Time.exactReader 600 exTimed).bind (retimeDoc .media Time.exactReader 600)).bind (timesOf 0) =
      some [⟨1000000, some 6000000⟩, ⟨1000000, some 6000000⟩, ⟨3000000, some 6000000⟩] ∧
    (retimeDoc .media Time.exactReader 1200 exTimed).bind (timesOf 0) =
      some [⟨1001000, some 6001000⟩, ⟨1001000, some 6001000⟩, ⟨3001000, some 6001000⟩] :=
  ⟨by decide +kernel, by decide +kernel⟩

/-- Behind a node with the same identifier nothing comes out but messages: a node does not take what has the identifier it gives. -/
theorem C112_false_same_identifier (rd : Reader) (a b : RNode) (hab : a.out = b.out) (cs : List RNode)
    (es : List (RIn × (RNode → Int))) (k : Nat) (d : RDoc) (now : RNode → Int) (he : es[k]? = some (.doc d, now)) (o : Option RIn)
    (ho : (passAll rd (fresh (a :: b :: cs)) es)[k]? = some o) : o = none := by
  obtain ⟨ns, h1, h2⟩ := passAll_get he ho
  rw [fresh_nodes] at h1
  match ns, h1 with
  | (a', s) :: (b', s') :: ns, h1 =>
    simp only [List.map_cons, List.cons.injEq] at h1
    obtain ⟨rfl, rfl, _⟩ := h1
    rw [← h2, passOn]
    split
    · rename_i s1 o1 hr
      obtain ⟨body, _, rfl⟩ := recordNode_emits hr
      simp only [passOn, recordNode, hab, if_true]
    · rfl

/-- A delivery that raises leaves the document with the identifier of the output and the entry in its record though nothing was
emitted; delivered once more it is refused as belonging to the output. -/
theorem C112_false_failed_delivery : ∃ (d : RDoc) (s : TState) (info : Option HeadMeta),
    recordNode Time.exactReader ⟨"n1", "o1", 20000000⟩ {} 7 (.doc d) = (s, .failed "o1" info) ∧ entriesOf d.info = [] ∧
    entriesOf info = [⟨20000000, "retiming_delay_node_v1.0", "n1", 7⟩] ∧
    ∀ body, (recordNode Time.exactReader ⟨"n1", "o1", 20000000⟩ s 8 (.doc ⟨⟨"o1", d.doc.num, d.doc.base, body⟩, info⟩)).2 =
      .otherSequence ⟨⟨"o1", d.doc.num, d.doc.base, body⟩, info⟩ := by
  let body : Node Att := .elem { kind := .body } [.elem { kind := .div } [.elem { kind := .p, beg := some ⟨"99:59:50".toList, 359990000000⟩ } [.text ['a']]]]
  have h : (retimeDoc .clock Time.exactReader 20000000 body).isNone = true := by decide +kernel
  have h' : retimeDoc .clock Time.exactReader 20000000 body = none := Option.isNone_iff_eq_none.mp h
  refine ⟨⟨⟨"a", 1, .clock, body⟩, none⟩, ⟨[("a", [1])], some "a"⟩, some (noted ⟨"n1", "o1", 20000000⟩ 7 none), ?_, rfl, rfl, fun _ => rfl⟩
  simp only [recordNode, h']
  rfl

end Verif.Node.Record
