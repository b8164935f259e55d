import Mathlib.Data.List.Forall2
import Verif.Adapt.Model

/-!
# Connecting components, and what reaches the other end (C60, C61, C62, C63)
-/
namespace Verif.Adapt

/-! ### Specification -/

/-- The data has the type a component declares; everything has type `ANY`.  A live message travels where
EBU-TT Live documents do, and a TTD document without content is no document. -/
def Data.HasTy : Data → Ty → Prop
  | _, .any => True
  | .text _, .text => True
  | .doc _, .ebutt3 => True
  | .msg _, .ebutt3 => True
  | .ttd (some _), .ebuttd => True
  | _, _ => False

/-- The conversions the toolkit knows: from, to. -/
def conversions : List (Ty × Ty) :=
  [(.text, .ebutt3), (.text, .ebuttd), (.ebutt3, .text), (.ebuttd, .text), (.ebutt3, .ebuttd)]

/-- A list of adapters leading from one type to another, each taking what the one before makes. -/
def Links (s : Ty) : List Adapter → Ty → Prop
  | [], t => s = t
  | a :: as, t => s = a.expects ∧ Links a.provides as t

instance : ∀ (s : Ty) (l : List Adapter) (t : Ty), Decidable (Links s l t)
  | s, [], t => inferInstanceAs (Decidable (s = t))
  | s, a :: as, t =>
    have := instDecidableLinks a.provides as t
    inferInstanceAs (Decidable (s = a.expects ∧ Links a.provides as t))

/-- The exceptions that are the fault of the content. -/
def Err.content : Err → Prop
  | .parse => True
  | .invalid => True
  | .otherSequence => True
  | _ => False

/-- What comes out of a conversion is of type `t`, or the content was refused. -/
def Arrives (t : Ty) : Except Err (Data × Kw) → Prop
  | .ok (y, _) => y.HasTy t
  | .error e => e.content

/-! ### C60 -/

/-- **C60.** Without adapters named in the configuration a node and an output carriage can be joined exactly
if their types are the same, one of them takes anything, or the toolkit knows the conversion. -/
theorem C60_joined_iff (node carriage : Ty) :
    (wireProducer node carriage none).isSome = true ↔
      node = carriage ∨ node = .any ∨ carriage = .any ∨ (node, carriage) ∈ conversions := by
  cases node <;> cases carriage <;> decide

/-- The same for an input carriage, the other way round. -/
theorem C60_joined_input_iff (node carriage : Ty) :
    (wireConsumer node carriage none).isSome = true ↔
      node = carriage ∨ node = .any ∨ carriage = .any ∨ (carriage, node) ∈ conversions := by
  cases node <;> cases carriage <;> decide

theorem links_last : ∀ (as : List Adapter) (a : Adapter) (s t : Ty), Links s (a :: as) t →
    s = a.expects ∧ ((a :: as).getLast?).map Adapter.provides = some t := by
  intro as
  induction as with
  | nil =>
    intro a s t h
    exact ⟨h.1, congrArg some h.2⟩
  | cons b bs ih =>
    intro a s t h
    refine ⟨h.1, ?_⟩
    rw [List.getLast?_cons_cons]
    exact (ih b _ t h.2).2

theorem Ty.eq_refl (t : Ty) : t.eq t = true := by cases t <;> rfl

theorem setDataAdapters_links {s t : Ty} {l : List Adapter} (h : Links s l t) : setDataAdapters (some l) t s = some l := by
  cases l with
  | nil =>
    have h : s = t := h
    subst h
    simp [setDataAdapters, Ty.eq_refl]
  | cons a as =>
    obtain ⟨h1, h2⟩ := links_last as a s t h
    unfold setDataAdapters
    cases hl : (a :: as).getLast? with
    | none => simp at hl
    | some z =>
      rw [hl] at h2
      injection h2 with h2
      subst h1
      subst h2
      simp [Ty.eq_refl, hl]

/-- Adapters that lead from the node's type to the carriage's are accepted as they are. -/
theorem C60_adapters_accepted (node carriage : Ty) (l : List Adapter) :
    (Links node l carriage → wireProducer node carriage (some l) = some l) ∧
    (Links carriage l node → wireConsumer node carriage (some l) = some l) :=
  ⟨fun h => setDataAdapters_links h, fun h => setDataAdapters_links h⟩

/-- Adapters that do not begin with the type of the sender or do not end with that of the receiver are
refused. -/
theorem C60_adapters_refused (node carriage : Ty) (a z : Adapter) (l : List Adapter)
    (hz : (a :: l).getLast? = some z) (hn : node ≠ .any) (hc : carriage ≠ .any)
    (h : a.expects ≠ node ∨ z.provides ≠ carriage) :
    wireProducer node carriage (some (a :: l)) = none ∧
    (wireConsumer carriage node (some (a :: l)) = none) := by
  have hne : ∀ a b : Ty, b ≠ .any → a ≠ .any → a ≠ b → a.eq b = false := by
    intro a b; cases a <;> cases b <;> decide
  have ha : ∀ a : Adapter, a.expects ≠ .any ∧ a.provides ≠ .any := by intro a; cases a <;> decide
  have : setDataAdapters (some (a :: l)) carriage node = none := by
    unfold setDataAdapters
    simp only [List.head?_cons, hz]
    rcases h with h | h
    · rw [hne _ _ hn (ha a).1 h]; simp
    · rw [hne _ _ hc (ha z).2 h]; simp
  exact ⟨this, this⟩

theorem convert_typed (X : Codec) (a : Adapter) (ha : a ≠ .threeToD) (x : Data) (kw : Kw) (hx : x.HasTy a.expects) :
    Arrives a.provides (a.convert X x kw) := by
  cases a with
  | threeToD => exact absurd rfl ha
  | xmlTo3 =>
    cases x with
    | text s =>
      simp only [Adapter.convert, Adapter.provides]
      cases X.read s with
      | none => trivial
      | some r =>
        cases r with
        | inl b =>
          simp only
          split
          · split <;> trivial
          · trivial
        | inr m =>
          simp only
          split <;> trivial
    | doc d => exact hx.elim
    | msg d => exact hx.elim
    | ttd d => cases d <;> exact hx.elim
  | xmlToD =>
    cases x with
    | text s =>
      simp only [Adapter.convert, Adapter.provides]
      cases X.readD s <;> trivial
    | doc d => exact hx.elim
    | msg d => exact hx.elim
    | ttd d => cases d <;> exact hx.elim
  | dToXml =>
    cases x with
    | ttd d =>
      cases d with
      | none => exact hx.elim
      | some b => trivial
    | text s => exact hx.elim
    | doc d => exact hx.elim
    | msg d => exact hx.elim
  | threeToXml =>
    cases x with
    | doc d => trivial
    | msg d => trivial
    | text s => exact hx.elim
    | ttd d => cases d <;> exact hx.elim

theorem convertAll_typed (X : Codec) : ∀ (l : List Adapter) (s t : Ty) (x : Data) (kw : Kw), Links s l t →
    Adapter.threeToD ∉ l → x.HasTy s → Arrives t (convertAll X l x kw) := by
  intro l
  induction l with
  | nil => intro s t x kw h _ hx; have h : s = t := h; subst h; exact hx
  | cons a as ih =>
    intro s t x kw h hn hx
    obtain ⟨rfl, h⟩ := h
    have h1 := convert_typed X a (by rintro rfl; exact hn (List.mem_cons_self)) x kw hx
    unfold convertAll
    cases hc : a.convert X x kw with
    | error e => rw [hc] at h1; exact h1
    | ok r =>
      rw [hc] at h1
      exact ih _ t r.1 r.2 h (fun hm => hn (List.mem_cons_of_mem _ hm)) h1

theorem wired_links {s t : Ty} {l : List Adapter} (h : setDataAdapters none t s = some l) (hs : s ≠ .any) (ht : t ≠ .any)
    (hd : (s, t) ≠ (.ebutt3, .ebuttd)) : Links s l t ∧ Adapter.threeToD ∉ l := by
  have hx : setDataAdapters none .ebutt3 .ebuttd = none := by decide
  cases s <;> cases t <;> first
    | exact absurd rfl hs
    | exact absurd rfl ht
    | exact absurd rfl hd
    | (rw [hx] at h; cases h)
    | (injection h with h; subst h; decide)

/-- **C60, partial.** Whatever a node emits into a carriage it was joined with arrives there as data of the
type the carriage expects, unless the content itself is refused; and the same from a carriage to a node.
Not for components that take anything (`C60_false_any`), not for the conversion from EBU-TT Live to
EBU-TT-D (`C60_false_ebuttd`). -/
theorem C60_arrives_partial (X : Codec) (node carriage : Ty) (hn : node ≠ .any) (hc : carriage ≠ .any)
    (x : Data) (kw : Kw) (l : List Adapter) :
    (wireProducer node carriage none = some l → (node, carriage) ≠ (.ebutt3, .ebuttd) → x.HasTy node →
      Arrives carriage (convertAll X l x kw)) ∧
    (wireConsumer node carriage none = some l → (carriage, node) ≠ (.ebutt3, .ebuttd) → x.HasTy carriage →
      Arrives node (convertAll X l x kw)) := by
  constructor
  · intro h hd hx
    obtain ⟨h1, h2⟩ := wired_links h hn hc hd
    exact convertAll_typed X l _ _ x kw h1 h2 hx
  · intro h hd hx
    obtain ⟨h1, h2⟩ := wired_links h hc hn hd
    exact convertAll_typed X l _ _ x kw h1 h2 hx

/-- The same with adapters named in the configuration, if each takes what the one before makes. -/
theorem C60_arrives_adapters_partial (X : Codec) (s t : Ty) (l : List Adapter) (h : Links s l t)
    (hd : Adapter.threeToD ∉ l) (x : Data) (kw : Kw) (hx : x.HasTy s) : Arrives t (convertAll X l x kw) :=
  convertAll_typed X l s t x kw h hd hx

/-- A codec for the examples: it knows one document, one message and one TTD document. -/
def exCodec : Codec where
  write3 b := if b.num = 1 then "<tt/>" else "<tt n='2'/>"
  writeM _ := "<message/>"
  read s := if s = "<tt/>" then some (.inl ⟨"seq", 1, "clock", some "local", ""⟩)
    else if s = "<tt n='2'/>" then some (.inl ⟨"retimed", 2, "clock", some "local", ""⟩)
    else if s = "<message/>" then some (.inr ⟨"seq", ""⟩) else none
  valid _ _ := true
  writeD s := s
  readD s := some s
  toD b := some b.rest

def exDoc : Doc3 := ⟨⟨"seq", 1, "clock", some "local", ""⟩, some 5⟩

/-- A producer of EBU-TT Live and a websocket. -/
example : wireProducer .ebutt3 .text none = some [.threeToXml] ∧ (Data.doc exDoc).HasTy .ebutt3 ∧
    (convertAll exCodec [.threeToXml] (.doc exDoc) Kw.empty).toOption.map (·.1) = some (.text "<tt/>") :=
  ⟨by decide, trivial, by decide⟩

example : Links .ebutt3 [.threeToXml, .xmlTo3, .threeToXml] .text := by decide

/-- C60 is false inside a list of adapters named in the configuration: only its ends are compared, so a list
whose second adapter cannot take what the first makes is accepted, and every document then fails. -/
theorem C60_false_middle (X : Codec) (d : Doc3) (kw : Kw) :
    wireProducer .ebutt3 .text (some [.threeToXml, .dToXml]) = some [.threeToXml, .dToXml] ∧
    convertAll X [.threeToXml, .dToXml] (.doc d) kw = .error .wrongData :=
  ⟨by decide, rfl⟩

/-- C60 is false across an in-memory carriage, which takes and provides anything: a producer of documents and
a node that expects text are joined by it without complaint, and the node is handed a document. -/
theorem C60_false_any (X : Codec) (d : Doc3) (kw : Kw) :
    wireProducer .ebutt3 .any none = some [] ∧ wireConsumer .text .any none = some [] ∧
    convertAll X ([] ++ []) (.doc d) kw = .ok (.doc d, kw) ∧ ¬ (Data.doc d).HasTy .text :=
  ⟨by decide, by decide, rfl, fun h => h⟩

/-- C60 is false for the registered conversion from EBU-TT Live to EBU-TT-D: it is chosen, and never delivers
a document with content. -/
theorem C60_false_ebuttd (X : Codec) (x : Data) (kw : Kw) :
    wireProducer .ebutt3 .ebuttd none = some [.threeToD] ∧
    ∃ y kw', convertAll X [.threeToD] x kw = .ok (y, kw') ∧ ¬ y.HasTy .ebuttd :=
  ⟨by decide, _, _, rfl, fun h => h⟩

/-! ### Adapters named in a configuration -/

/-- The configuration's word for a conversion, its types and the adapter that has them. -/
def configurable : List (String × Ty × Ty) :=
  [("xml->ebutt3", .text, .ebutt3), ("xml->ebuttd", .text, .ebuttd), ("ebutt3->xml", .ebutt3, .text), ("ebuttd->xml", .ebuttd, .text)]

theorem adapterOfName_iff (n : String) (a : Adapter) : adapterOfName n = some a ↔ (n, a.expects, a.provides) ∈ configurable := by
  constructor
  · intro h
    unfold adapterOfName at h
    split at h <;> first | (injection h with h; subst h; decide) | cases h
  · intro h
    simp only [configurable, List.mem_cons, Prod.mk.injEq, List.not_mem_nil, or_false] at h
    rcases h with ⟨rfl, h1, h2⟩ | ⟨rfl, h1, h2⟩ | ⟨rfl, h1, h2⟩ | ⟨rfl, h1, h2⟩ <;> cases a <;>
      simp_all [adapterOfName, Adapter.expects, Adapter.provides]

theorem mapM_forall₂ {α β : Type} {f : α → Option β} : ∀ {l : List α} {m : List β},
    l.mapM f = some m ↔ List.Forall₂ (fun a b => f a = some b) l m
  | [], m => by
    simp only [List.mapM_nil, pure, Option.some.injEq]
    constructor
    · rintro rfl; exact .nil
    · intro h; cases h; rfl
  | a :: l, m => by
    rw [List.mapM_cons]
    cases h : f a with
    | none =>
      constructor
      · intro h'; cases h'
      · intro h'; cases h' with | cons h1 _ => rw [h] at h1; cases h1
    | some b =>
      cases h2 : l.mapM f with
      | none =>
        constructor
        · intro h'; simp at h'
        · intro h'
          cases h' with | cons _ h1 => rw [mapM_forall₂.mpr h1] at h2; cases h2
      | some m' =>
        constructor
        · intro h'
          simp only [bind, Option.bind, pure, Option.some.injEq] at h'
          subst h'
          exact .cons h (mapM_forall₂.mp h2)
        · intro h'
          cases h' with
          | cons h1 h3 =>
            rw [h] at h1; cases h1
            rw [mapM_forall₂.mpr h3] at h2; cases h2
            rfl

/-- **C60.** The adapters made from a configuration are those whose conversions it names, in order. -/
theorem C60_configured (names : List String) (l : List Adapter) :
    parseAdapters (some names) = some (some l) ↔
      names ≠ [] ∧ List.Forall₂ (fun n a => (n, a.expects, a.provides) ∈ configurable) names l := by
  simp only [← adapterOfName_iff]
  rw [← mapM_forall₂]
  unfold parseAdapters
  simp only
  cases names with
  | nil => simp
  | cons n ns =>
    cases h : (n :: ns).mapM adapterOfName with
    | none => simp
    | some m =>
      have hm : m ≠ [] := by
        rintro rfl
        have := mapM_forall₂.mp h
        cases this
      simp [hm]

/-- **C60.** A configuration is refused exactly if it names a conversion that there is not.  No word stands for the conversion from
EBU-TT Live to EBU-TT-D. -/
theorem C60_configured_refused (names : List String) :
    parseAdapters (some names) = none ↔ ∃ n ∈ names, n ∉ configurable.map Prod.fst := by
  have key : ∀ n, adapterOfName n = none ↔ n ∉ configurable.map Prod.fst := by
    intro n
    constructor
    · intro h hm
      simp only [configurable, List.map_cons, List.map_nil, List.mem_cons, List.not_mem_nil, or_false] at hm
      rcases hm with rfl | rfl | rfl | rfl <;> simp [adapterOfName] at h
    · intro h
      cases ha : adapterOfName n with
      | none => rfl
      | some a => exact absurd (List.mem_map.mpr ⟨_, (adapterOfName_iff n a).mp ha, rfl⟩) h
  simp only [← key]
  unfold parseAdapters
  simp only [Option.map_eq_none_iff]
  induction names with
  | nil => simp
  | cons n ns ih =>
    rw [List.mapM_cons]
    cases h : adapterOfName n with
    | none => simp [h]
    | some a =>
      cases h2 : ns.mapM adapterOfName with
      | none =>
        rw [h2] at ih
        simp only [true_iff] at ih
        simp [bind, Option.bind, ih, h]
      | some m =>
        rw [h2] at ih
        simp only [reduceCtorEq, false_iff] at ih
        simp [bind, Option.bind, h, ih]

/-- **C60.** No list, and an empty one, leave it to the types. -/
theorem C60_configured_none (value : Option (List String)) : parseAdapters value = some none ↔ value = none ∨ value = some [] := by
  cases value with
  | none => simp [parseAdapters]
  | some names =>
    cases names with
    | nil => simp [parseAdapters]
    | cons n ns =>
      simp only [parseAdapters, reduceCtorEq, Option.some.injEq, or_self, iff_false]
      cases h : (n :: ns).mapM adapterOfName with
      | none => simp
      | some m =>
        have hm : m ≠ [] := by
          rintro rfl
          have := mapM_forall₂.mp h
          cases this
        simp [hm]

/-- A live document written, read and written again on its way to a websocket. -/
example : parseAdapters (some ["ebutt3->xml", "xml->ebutt3", "ebutt3->xml"]) = some (some [.threeToXml, .xmlTo3, .threeToXml]) ∧
    parseAdapters (some ["ebutt3->ebuttd"]) = none := by decide

/-- **C60.** The adapter from EBU-TT-D to text writes whatever has a text, live documents and messages too, and passes on all it was told;
it fails for texts and for EBU-TT-D documents without content. -/
theorem C60_written (X : Codec) (x y : Data) (kw kw' : Kw) : Adapter.dToXml.convert X x kw = .ok (y, kw') ↔
    kw' = kw ∧ ((∃ b, x = .ttd (some b) ∧ y = .text (X.writeD b)) ∨ (∃ d, x = .doc d ∧ y = .text (X.write3 d.bind)) ∨
      ∃ m, x = .msg m ∧ y = .text (X.writeM m.bind)) := by
  cases x with
  | text s => simp [Adapter.convert, getXml, Except.map]
  | doc d => simp [Adapter.convert, getXml, Except.map, eq_comm, and_comm]
  | msg m => simp [Adapter.convert, getXml, Except.map, eq_comm, and_comm]
  | ttd o => cases o <;> simp [Adapter.convert, getXml, Except.map, eq_comm, and_comm]

end Verif.Adapt
