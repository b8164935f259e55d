import Verif.Adapt.WireProps
import Verif.Ui.DocProps
import Verif.Fs.TailProps

/-!
# Documents through files, printed and parsed (C61), and followed while they are written (C93)
-/
namespace Verif.Adapt

/-- A document sent through a folder: the root's attributes and content, its availability time, and the keyword arguments it is emitted with. -/
structure SentDoc where
  attrs : List (Xml.Text × Xml.Text)
  kids : List Xml.X
  avail : Int
  kw : Kw

def SentDoc.tree (d : SentDoc) : Xml.X := .elem "tt:tt".toList d.attrs d.kids
def SentDoc.doc (d : SentDoc) : Doc3 × Kw := (⟨bindOf d.tree, some d.avail⟩, d.kw)

/-- When it is available for the reader: with the delay, to the millisecond. -/
def SentDoc.at (d : SentDoc) : Int := Fs.wholeMs (d.avail + d.kw.delayed)

/-- As it should arrive. -/
def SentDoc.arrived (d : SentDoc) : Except Err Data := .ok (.doc ⟨bindOf d.tree, some d.at⟩)

/-- Documents of one sequence with a number each, well-formed, without text beside elements, and valid at the time they are available. -/
structure Sendable (mixed : Xml.Text → Bool) (valid : Bind → Option Int → Bool) (sid : String) (ds : List SentDoc) : Prop where
  comma : ',' ∉ sid.toList
  newline : '\n' ∉ sid.toList
  sid : ∀ d ∈ ds, (bindOf d.tree).sid = sid
  numbers : (ds.map (fun d => (bindOf d.tree).num)).Nodup
  good : ∀ d ∈ ds, Xml.good d.tree = true
  plain : ∀ d ∈ ds, Xml.plain mixed d.tree = true
  valid : ∀ d ∈ ds, valid (bindOf d.tree) (some d.at) = true

/-- What the producer's carriage is called with. -/
def fsSent (X : Codec) (clock : Option Int) (ds : List SentDoc) : List Fs.Out := (ds.map SentDoc.doc).filterMap (fsEmitted X clock)

theorem Sendable.take {mixed : Xml.Text → Bool} {valid : Bind → Option Int → Bool} {sid : String} {ds : List SentDoc}
    (h : Sendable mixed valid sid ds) (n : Nat) : Sendable mixed valid sid (ds.take n) := by
  have hm : ∀ d ∈ ds.take n, d ∈ ds := fun d hd => List.mem_of_mem_take hd
  refine ⟨h.comma, h.newline, fun d hd => h.sid d (hm d hd), ?_, fun d hd => h.good d (hm d hd), fun d hd => h.plain d (hm d hd),
    fun d hd => h.valid d (hm d hd)⟩
  exact h.numbers.sublist ((List.take_sublist n ds).map _)

/-- **C61, filesystem, from tree to tree.**  Documents written to a folder as text and read from it by another application arrive in the same order, with the same tree
and the availability time they should have. -/
theorem C61_filesystem_xml_partial (mixed : Xml.Text → Bool) (valid : Bind → Option Int → Bool) (toD : Bind → Option String)
    (clock : Option Int) (files : Fs.Text → Option Fs.Text) (sid : String) (ds : List SentDoc) (h : Sendable mixed valid sid ds) :
    fsReceived (xmlCodec mixed valid toD) (Fs.produced files (fsSent (xmlCodec mixed valid toD) clock ds)) = some (ds.map SentDoc.arrived) := by
  have := C61_filesystem (xmlCodec mixed valid toD) clock files sid (ds.map SentDoc.doc)
    (by
      intro d hd
      obtain ⟨e, he, rfl⟩ := List.mem_map.mp hd
      exact h.sid e he)
    h.comma h.newline
    (by rw [List.map_map]; exact h.numbers)
    (fun d => d.1.avail.getD 0)
    (by
      intro d hd
      obtain ⟨e, he, rfl⟩ := List.mem_map.mp hd
      rfl)
    (by
      intro d hd
      obtain ⟨e, he, rfl⟩ := List.mem_map.mp hd
      exact plain_survives mixed valid toD e.attrs e.kids (h.good e he) (h.plain e he) _ (h.valid e he))
  rw [List.map_map] at this
  exact this

theorem fsSent_one {mixed : Xml.Text → Bool} {valid : Bind → Option Int → Bool} (toD : Bind → Option String)
    (clock : Option Int) {sid : String} {ds : List SentDoc} (h : Sendable mixed valid sid ds) :
    Fs.OneSequence sid.toList (fsSent (xmlCodec mixed valid toD) clock ds) := by
  refine ⟨?_, h.comma, h.newline, ?_⟩
  · intro o ho
    obtain ⟨d, hd, hde⟩ := List.mem_filterMap.mp ho
    obtain ⟨e, he, rfl⟩ := List.mem_map.mp hd
    obtain ⟨o', h1, h2, -⟩ := fsEmitted_eq (xmlCodec mixed valid toD) clock e.doc.1 e.doc.2
    rw [show (e.doc.1, e.doc.2) = e.doc from rfl, hde] at h1
    injection h1 with h1
    rw [h1, h2, show e.doc.1.bind.sid = sid from h.sid e he]
  · have : (fsSent (xmlCodec mixed valid toD) clock ds).filterMap (·.num) = ds.map (fun d => (bindOf d.tree).num) := by
      unfold fsSent
      clear h
      induction ds with
      | nil => rfl
      | cons d ds ih =>
        obtain ⟨o', h1, -, h3, -⟩ := fsEmitted_eq (xmlCodec mixed valid toD) clock d.doc.1 d.doc.2
        rw [List.map_cons, List.filterMap_cons_some h1, List.filterMap_cons_some h3, List.map_cons, ih]
        rfl
    rw [this]
    exact h.numbers

/-- What the node behind a following reader has been handed. -/
def tailed (X : Codec) (s : Fs.Tail) : List (Except Err Data) :=
  s.out.map (fun r => (convertAll X [.xmlTo3] (fsIn r).1 (fsIn r).2).map (·.1))

theorem handed_arrived {mixed : Xml.Text → Bool} {valid : Bind → Option Int → Bool} (toD : Bind → Option String)
    (clock : Option Int) {sid : String} {ds : List SentDoc} (h : Sendable mixed valid sid ds) :
    ((fsSent (xmlCodec mixed valid toD) clock ds).flatMap Fs.handed).map
      (fun r => (convertAll (xmlCodec mixed valid toD) [.xmlTo3] (fsIn r).1 (fsIn r).2).map (·.1)) = ds.map SentDoc.arrived := by
  have h1 := C61_filesystem_xml_partial mixed valid toD clock (fun _ => none) sid ds h
  unfold fsReceived at h1
  rw [Fs.C44_read_back_partial sid.toList _ _ (fsSent_one toD clock h)] at h1
  simpa using h1

/-- **C93, from tree to tree, at any moment.**  The node behind the following reader has been handed the first few documents, with the trees and times they were sent with, and the
reader is still reading. -/
theorem C93_documents_partial (mixed : Xml.Text → Bool) (valid : Bind → Option Int → Bool) (toD : Bind → Option String)
    (clock : Option Int) (files : Fs.Text → Option Fs.Text) (sid : String) (ds : List SentDoc) (h : Sendable mixed valid sid ds)
    (evs : List Fs.TEv) (hops : Fs.opsIn evs <+: Fs.opsAll (Fs.emissions 0 (fsSent (xmlCodec mixed valid toD) clock ds)))
    (hw : Fs.WholeLines files evs) :
    (Fs.Tail.run files evs).alive = true ∧
    ∃ n, tailed (xmlCodec mixed valid toD) (Fs.Tail.run files evs) = (ds.take n).map SentDoc.arrived := by
  obtain ⟨h1, os1, os2, h2, h3⟩ := Fs.C93_safe_partial sid.toList _ files (fsSent_one toD clock h) evs hops hw
  refine ⟨h1, os1.length, ?_⟩
  have hlen : ∀ (ds : List SentDoc) (n : Nat), (fsSent (xmlCodec mixed valid toD) clock ds).take n
      = fsSent (xmlCodec mixed valid toD) clock (ds.take n) := by
    intro ds
    induction ds with
    | nil => intro n; simp [fsSent]
    | cons d ds ih =>
      intro n
      obtain ⟨o', e1, -⟩ := fsEmitted_eq (xmlCodec mixed valid toD) clock d.doc.1 d.doc.2
      have hc : ∀ l, fsSent (xmlCodec mixed valid toD) clock (d :: l) = o' :: fsSent (xmlCodec mixed valid toD) clock l := by
        intro l
        unfold fsSent
        rw [List.map_cons, List.filterMap_cons_some e1]
      cases n with
      | zero => simp [fsSent]
      | succ n => rw [hc, List.take_succ_cons, List.take_succ_cons, hc, ih]
  have h4 : os1 = fsSent (xmlCodec mixed valid toD) clock (ds.take os1.length) := by
    rw [← hlen, h2, List.take_left]
  unfold tailed
  rw [h3]
  have h5 := handed_arrived toD clock (h.take os1.length)
  rw [← h4] at h5
  exact h5

/-- **C93, all of them.**  When everything has been written, enough further rounds hand on all documents. -/
theorem C93_all_documents_partial (mixed : Xml.Text → Bool) (valid : Bind → Option Int → Bool) (toD : Bind → Option String)
    (clock : Option Int) (files : Fs.Text → Option Fs.Text) (sid : String) (ds : List SentDoc) (h : Sendable mixed valid sid ds)
    (evs : List Fs.TEv) (hops : Fs.opsIn evs = Fs.opsAll (Fs.emissions 0 (fsSent (xmlCodec mixed valid toD) clock ds)))
    (hw : Fs.WholeLines files evs) :
    ∃ n, ∀ k ≥ n, tailed (xmlCodec mixed valid toD) (Fs.Tail.run files (evs ++ Fs.rounds k)) = ds.map SentDoc.arrived := by
  obtain ⟨n, hn⟩ := Fs.C93_all_partial sid.toList _ files (fsSent_one toD clock h) evs hops hw
  refine ⟨n, fun k hk => ?_⟩
  unfold tailed
  rw [(hn k hk).2]
  exact handed_arrived toD clock h

/-! ### The hypotheses are met -/

def exSent (n t : String) (a : Int) : SentDoc :=
  ⟨[("ebuttp:sequenceIdentifier".toList, "s".toList), ("ebuttp:sequenceNumber".toList, n.toList), ("ttp:timeBase".toList, "media".toList)],
   [.elem "tt:body".toList [] [.elem "tt:div".toList [] [.elem "tt:p".toList [("xml:id".toList, "p1".toList)] [.text t.toList]]]], a, Kw.empty⟩

theorem exSent_sendable : Sendable exMixed (fun _ _ => true) "s" [exSent "1" "a" 1000000, exSent "2" "b" 2000500] := by
  refine ⟨by decide, by decide, ?_, ?_, ?_, ?_, ?_⟩
  · intro d hd
    simp only [List.mem_cons, List.not_mem_nil, or_false] at hd
    rcases hd with rfl | rfl
    · exact exTree_sid "1" "a"
    · exact exTree_sid "2" "b"
  · have h : ∀ n t a, (bindOf (exSent n t a).tree).num = ((String.ofList n.toList).toNat?).getD 0 := by
      intro n t a
      have h2 : attrOf "ebuttp:sequenceNumber" (exSent n t a).tree = some (String.ofList n.toList) := by
        simp only [attrOf, exSent, SentDoc.tree]
        rw [List.find?_cons_of_neg (by decide), List.find?_cons_of_pos (by simp only [decide_true])]
        rfl
      unfold bindOf
      simp only [h2, Option.bind_some]
    have h1 := Ui.toNat_digs 1
    have h2 := Ui.toNat_digs 2
    rw [show Time.digs 1 = "1".toList by decide +kernel] at h1
    rw [show Time.digs 2 = "2".toList by decide +kernel] at h2
    simp only [List.map_cons, List.map_nil, h, h1, h2]
    decide
  · intro d hd
    simp only [List.mem_cons, List.not_mem_nil, or_false] at hd
    rcases hd with rfl | rfl <;> decide +kernel
  · intro d hd
    simp only [List.mem_cons, List.not_mem_nil, or_false] at hd
    rcases hd with rfl | rfl <;> decide +kernel
  · intro d hd; rfl

/-- A schedule that meets the hypotheses, for these documents: everything is written before the reader looks. -/
example : let ops := Fs.opsAll (Fs.emissions 0 (fsSent exX none [exSent "1" "a" 1000000, exSent "2" "b" 2000500]))
    Fs.opsIn (ops.map .op) = ops ∧ Fs.WholeLines (fun _ => none) (ops.map .op) := by
  intro ops
  constructor
  · unfold Fs.opsIn
    rw [List.filterMap_map]
    exact List.filterMap_some
  · intro a b hab
    have : Fs.TEv.readline ∈ ops.map Fs.TEv.op := by rw [hab]; simp
    obtain ⟨o, -, ho⟩ := List.mem_map.mp this
    cases ho

end Verif.Adapt
