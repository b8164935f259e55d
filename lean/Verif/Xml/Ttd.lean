import Verif.Xml.Props

/-!
# The names in EBU-TT-D documents, written and read (C114)

`/repo/ebu_tt_live/documents/ebuttd.py`, `bindings/__init__.py:1108-1141`, `node/encoder.py`.  EBU-TT Live and EBU-TT-D both call their
root `tt` in the same namespace; the schema calls that of EBU-TT-D `ttd` instead (xsd/ebutt_d.xsd:314-321), and writing and reading
put that right.
-/
namespace Verif.Xml.Ttd
open Verif.Xml

/-! ### Model -/

/-- `http://www.w3.org/ns/ttml`. -/
def ttml : Text := "http://www.w3.org/ns/ttml".toList

mutual
def rename (f : Text → Text) : X → X
  | .text d => .text d
  | .elem t as ks => .elem (f t) as (renames f ks)
def renames (f : Text → Text) : List X → List X
  | [] => []
  | k :: ks => rename f k :: renames f ks
end

/-- An `EBUTTDDocument`: its binding, in which elements have their names in the schema (all in the TTML namespace; elements of other
namespaces are left out), and `_implicit_ns`. -/
structure Doc where
  implicit : Bool
  attrs : List (Text × Text)
  kids : List X

/-- `create_from_raw_binding` (documents/ebuttd.py:50-54): `__new__` leaves `_implicit_ns` at the class's `False` (:14). -/
def Doc.fromBinding (attrs : List (Text × Text)) (kids : List X) : Doc := ⟨false, attrs, kids⟩

/-- `set_implicit_ns` (documents/ebuttd.py:27-30). -/
def Doc.setImplicit (d : Doc) (b : Bool) : Doc := { d with implicit := b }

/-- The tag of an element: without prefix if its namespace is the default one (`_get_bds`, documents/ebuttd.py:56-65). -/
def tagOf (implicit : Bool) (n : Text) : Text := if implicit then n else "tt:".toList ++ n

/-- The declaration of the namespace, at the root. -/
def decl (implicit : Bool) : Text × Text := (if implicit then "xmlns".toList else "xmlns:tt".toList, ttml)

/-- `toDOM` (bindings/__init__.py:1119-1132): the root's tag is put in by hand. -/
def Doc.dom (d : Doc) : X := .elem (tagOf d.implicit "tt".toList) (decl d.implicit :: d.attrs) (renames (tagOf d.implicit) d.kids)

/-- `get_xml` (documents/ebuttd.py:67-70). -/
def Doc.xml (d : Doc) : Text := writeDoc d.dom

/-- The part after the first colon, and the part before it (empty if there is none). -/
def localOf (t : Text) : Text := if ':' ∈ t then (t.dropWhile (· ≠ ':')).drop 1 else t
def prefixOf (t : Text) : Text := if ':' ∈ t then t.takeWhile (· ≠ ':') else []

/-- The name of an element in the TTML namespace, by the declarations `ds` at the root; `none` for other namespaces. -/
def resolve (ds : List (Text × Text)) (t : Text) : Option Text :=
  let key := if prefixOf t = [] then "xmlns".toList else "xmlns:".toList ++ prefixOf t
  if (key, ttml) ∈ ds then some (localOf t) else none

mutual
def resolveAll (ds : List (Text × Text)) : X → Option X
  | .text d => some (.text d)
  | .elem t as ks =>
    match resolve ds t, resolveKids ds ks with
    | some n, some ks' => some (.elem n as ks')
    | _, _ => none
def resolveKids (ds : List (Text × Text)) : List X → Option (List X)
  | [] => some []
  | k :: ks =>
    match resolveAll ds k, resolveKids ds ks with
    | some k', some ks' => some (k' :: ks')
    | _, _ => none
end

/-- A declaration of a namespace. -/
def isDecl (a : Text × Text) : Bool := prefixOf a.1 = "xmlns".toList || a.1 = "xmlns".toList

/-- What reading makes.  Which documents are valid otherwise is left out. -/
inductive Read where
  | raised
  /-- an EBU-TT-D binding -/
  | ebuttd (attrs : List (Text × Text)) (kids : List X)
  /-- an EBU-TT Live binding -/
  | live (attrs : List (Text × Text)) (kids : List X)

/-- The class of a root of the given name in its namespace (`CreateFromDOM`, documents/ebuttd.py:45).  An EBU-TT Live root needs a sequence
identifier (xsd/ebutt_live.xsd:361). -/
def classify (as : List (Text × Text)) : Option Text → Option (List X) → Read
  | some n, some ks =>
    if n = "ttd".toList then .ebuttd (as.filter (fun a => !isDecl a)) ks
    else if n = "tt".toList then
      (if as.any (fun a => decide (localOf a.1 = "sequenceIdentifier".toList)) then .live (as.filter (fun a => !isDecl a)) ks else .raised)
    else .raised
  | _, _ => .raised

/-- What is made of the tree that was read: a root whose tag is `tt` is renamed (documents/ebuttd.py:39-42). -/
def fromDom : X → Read
  | .elem t as ks => classify as (resolve as (if t = "tt".toList then "ttd".toList else t)) (resolveKids as ks)
  | .text _ => .raised

/-- `EBUTTDDocument.create_from_xml` (documents/ebuttd.py:36-48).  `mixed` tells by name which elements can contain text. -/
def fromXml (mixed : Text → Bool) (cs : Text) : Read :=
  match readDoc cs with
  | some x => fromDom (bindRead (fun t => mixed (localOf t)) x)
  | none => .raised

/-- The part of the encoder that has to do with names (node/encoder.py:17-33). -/
structure Encoder where
  defaultNs : Bool
  /-- `_default_ebuttd_doc`, which is never sent -/
  default : Doc

def Encoder.make (defaultNs : Bool) (attrs : List (Text × Text)) (kids : List X) : Encoder :=
  ⟨defaultNs, (Doc.fromBinding attrs kids).setImplicit defaultNs⟩

/-- `process_document` (node/encoder.py:35-48) from the converted binding on. -/
def Encoder.send (_ : Encoder) (attrs : List (Text × Text)) (kids : List X) : Doc := Doc.fromBinding attrs kids

/-! ### Specification -/

mutual
/-- A tree of elements with the names of the schema, which have no prefix. -/
def Named : X → Prop
  | .text _ => True
  | .elem t _ ks => ':' ∉ t ∧ NamedAll ks
def NamedAll : List X → Prop
  | [] => True
  | k :: ks => Named k ∧ NamedAll ks
end

mutual
/-- All tags of a tree. -/
def tags : X → List Text
  | .text _ => []
  | .elem t _ ks => t :: tagss ks
def tagss : List X → List Text
  | [] => []
  | k :: ks => tags k ++ tagss ks
end

/-! ### Proofs -/

theorem tag_local (i : Bool) (n : Text) (h : ':' ∉ n) : localOf (tagOf i n) = n := by
  cases i
  · simp [tagOf, localOf]
  · simp [tagOf, localOf, h]

theorem tag_prefix (i : Bool) (n : Text) (h : ':' ∉ n) : prefixOf (tagOf i n) = if i then [] else "tt".toList := by
  cases i
  · simp [tagOf, prefixOf]
  · simp [tagOf, prefixOf, h]

theorem tag_resolve (i : Bool) (n : Text) (as : List (Text × Text)) (h : ':' ∉ n) :
    resolve (decl i :: as) (tagOf i n) = some n := by
  unfold resolve
  rw [tag_local i n h, tag_prefix i n h]
  cases i <;> simp [decl]

mutual
theorem resolve_rename (i : Bool) (as : List (Text × Text)) : ∀ x : X, Named x → resolveAll (decl i :: as) (rename (tagOf i) x) = some x
  | .text d, _ => rfl
  | .elem t as' ks, h => by
    rw [Named] at h
    rw [rename, resolveAll, tag_resolve i t as h.1, resolve_renames i as ks h.2]
theorem resolve_renames (i : Bool) (as : List (Text × Text)) : ∀ ks : List X, NamedAll ks →
    resolveKids (decl i :: as) (renames (tagOf i) ks) = some ks
  | [], _ => rfl
  | k :: ks, h => by
    rw [NamedAll] at h
    rw [renames, resolveKids, resolve_rename i as k h.1, resolve_renames i as ks h.2]
end

theorem nameOk_tag (i : Bool) (n : Text) (h : nameOk n = true) : nameOk (tagOf i n) = true := by
  cases i
  · simp only [tagOf, nameOk] at h ⊢
    rw [Bool.and_eq_true] at h
    rw [Bool.and_eq_true, if_neg (by simp), List.all_append, h.2, Bool.and_true]
    exact ⟨by simp, by decide +kernel⟩
  · exact h

mutual
theorem good_rename (i : Bool) : ∀ x : X, good x = true → good (rename (tagOf i) x) = true
  | .text d, h => h
  | .elem t as ks, h => by
    rw [good, Bool.and_eq_true, Bool.and_eq_true] at h
    rw [rename, good, nameOk_tag i t h.1.1, h.1.2, good_renames i ks h.2]
    rfl
theorem good_renames (i : Bool) : ∀ ks : List X, goods ks = true → goods (renames (tagOf i) ks) = true
  | [], _ => rfl
  | k :: ks, h => by
    rw [goods, Bool.and_eq_true] at h
    rw [renames, goods, good_rename i k h.1, good_renames i ks h.2]
    rfl
end

theorem alone_renames (f : Text → Text) (ks : List X) : alone (renames f ks) = alone ks := by
  match ks with
  | [] => rfl
  | [.text d] => rfl
  | [.elem t as k] => rfl
  | a :: b :: ks =>
    rw [renames, renames]
    cases a <;> simp [rename, alone]

theorem isElem_renames (f : Text → Text) : ∀ ks : List X, (renames f ks).all X.isElem = ks.all X.isElem
  | [] => rfl
  | .text d :: ks => by rw [renames, rename, List.all_cons, List.all_cons, isElem_renames f ks]
  | .elem t as k :: ks => by rw [renames, rename, List.all_cons, List.all_cons, isElem_renames f ks]; rfl

theorem isEmpty_renames (f : Text → Text) (ks : List X) : (renames f ks).isEmpty = ks.isEmpty := by cases ks <;> rfl

mutual
theorem plain_rename (mixed : Text → Bool) (i : Bool) : ∀ x : X, Named x → plain mixed x = true →
    plain (fun t => mixed (localOf t)) (rename (tagOf i) x) = true
  | .text d, _, h => h
  | .elem t as ks, hn, h => by
    rw [Named] at hn
    rw [plain, Bool.and_eq_true] at h
    rw [rename, plain, tag_local i t hn.1, alone_renames, isElem_renames, isEmpty_renames, h.1, plain_renames mixed i ks hn.2 h.2]
    rfl
theorem plain_renames (mixed : Text → Bool) (i : Bool) : ∀ ks : List X, NamedAll ks → plains mixed ks = true →
    plains (fun t => mixed (localOf t)) (renames (tagOf i) ks) = true
  | [], _, _ => rfl
  | k :: ks, hn, h => by
    rw [NamedAll] at hn
    rw [plains, Bool.and_eq_true] at h
    rw [renames, plains, plain_rename mixed i k hn.1 h.1, plain_renames mixed i ks hn.2 h.2]
    rfl
end

/-- A document whose text can be read: see `good`; its attributes declare no namespaces. -/
structure Sound (as : List (Text × Text)) (ks : List X) : Prop where
  attrs : as.all attrOk = true
  undeclared : ∀ a ∈ as, isDecl a = false
  kids : goods ks = true
  named : NamedAll ks

theorem good_dom (i : Bool) {attrs : List (Text × Text)} {kids : List X} (h : Sound attrs kids) : good (Doc.dom ⟨i, attrs, kids⟩) = true := by
  unfold Doc.dom
  show (nameOk (tagOf i "tt".toList) && (decl i :: attrs).all attrOk && goods (renames (tagOf i) kids)) = true
  rw [good_renames i _ h.kids, nameOk_tag i _ (by decide +kernel), List.all_cons, h.attrs]
  cases i <;> decide +kernel

mutual
theorem tags_rename (i : Bool) : ∀ x : X, tags (rename (tagOf i) x) = (tags x).map (tagOf i)
  | .text d => rfl
  | .elem t as ks => by rw [rename, tags, tags, List.map_cons, tagss_renames i ks]
theorem tagss_renames (i : Bool) : ∀ ks : List X, tagss (renames (tagOf i) ks) = (tagss ks).map (tagOf i)
  | [] => rfl
  | k :: ks => by rw [renames, tagss, tagss, List.map_append, tags_rename i k, tagss_renames i ks]
end

/-- The tag that is opened. -/
def openedTag : Ev → Option Text
  | .opened t _ => some t
  | _ => none

theorem opened_chars (d : Text) : (d.map Ev.char).filterMap openedTag = [] := by
  induction d with
  | nil => rfl
  | cons c d ih => simp [openedTag]

mutual
theorem tags_seen : ∀ x : X, (seen x).filterMap openedTag = tags x
  | .text d => by rw [seen, opened_chars, tags]
  | .elem t as ks => by
    rw [seen, tags, List.cons_append, List.filterMap_cons, List.filterMap_append, tagss_seen ks]
    simp [openedTag]
theorem tagss_seen : ∀ ks : List X, (seens ks).filterMap openedTag = tagss ks
  | [] => rfl
  | k :: ks => by rw [seens, tagss, List.filterMap_append, tags_seen k, tagss_seen ks]
end

/-- **C114.** The tags of a written document are those asked for: all without prefix or all with the prefix `tt`; and the root is `tt`. -/
theorem C114_tags (d : Doc) (h : Sound d.attrs d.kids) :
    ∃ y, readDoc d.xml = some y ∧
      tags y = ("tt".toList :: tagss d.kids).map (fun n => if d.implicit then n else "tt:".toList ++ n) := by
  obtain ⟨i, attrs, kids⟩ := d
  obtain ⟨y, h1, h2⟩ := C68_visible_partial _ _ _ (good_dom i h)
  refine ⟨y, h1, ?_⟩
  rw [← tags_seen y, h2, tags_seen, tags, List.map_cons, tagss_renames]
  rfl

theorem undeclared_filter {as : List (Text × Text)} (h : ∀ a ∈ as, isDecl a = false) (i : Bool) :
    (decl i :: as).filter (fun a => !isDecl a) = as := by
  have h1 : isDecl (decl i) = true := by cases i <;> decide +kernel
  rw [List.filter_cons, h1]
  simp only [Bool.not_true, Bool.false_eq_true, if_false]
  exact List.filter_eq_self.2 (fun a ha => by rw [h a ha]; rfl)

theorem fromXml_of {mixed : Text → Bool} {cs : Text} {x : X} (h : readDoc cs = some x) :
    fromXml mixed cs = fromDom (bindRead (fun t => mixed (localOf t)) x) := by
  unfold fromXml; rw [h]

theorem read_dom (i : Bool) {attrs : List (Text × Text)} {kids : List X} (h : Sound attrs kids) :
    readDoc (Doc.xml ⟨i, attrs, kids⟩) =
      some (pretty [] (.elem (tagOf i "tt".toList) (decl i :: attrs) (renames (tagOf i) kids))) :=
  readDoc_writeDoc _ _ _ (good_dom i h)

theorem classify_live {as : List (Text × Text)} (h : as.any (fun a => decide (localOf a.1 = "sequenceIdentifier".toList)) = false) :
    ∀ ks, classify as (some "tt".toList) ks = .raised
  | none => rfl
  | some ks => by
    unfold classify; dsimp only
    rw [if_neg (by decide +kernel), if_pos rfl, h, if_neg (by simp)]

/-- **C114.** A document written with the default namespace is read as the EBU-TT-D document it was, if text is not beside elements (C68). -/
theorem C114_default_namespace_partial (mixed : Text → Bool) (d : Doc) (h : Sound d.attrs d.kids) (hroot : mixed "tt".toList = false)
    (helems : d.kids.all X.isElem = true) (hp : plains mixed d.kids = true) (hi : d.implicit = true) :
    fromXml mixed d.xml = .ebuttd d.attrs d.kids := by
  obtain ⟨i, attrs, kids⟩ := d
  replace hi : i = true := hi
  subst hi
  replace h : Sound attrs kids := h
  replace hp : plains mixed kids = true := hp
  replace helems : kids.all X.isElem = true := helems
  have hpl : plain (fun t => mixed (localOf t)) (.elem (tagOf true "tt".toList) (decl true :: attrs) (renames (tagOf true) kids)) = true := by
    show ((if mixed (localOf (tagOf true "tt".toList)) = true then _ else _) && _) = true
    rw [tag_local true _ (by decide +kernel), hroot, if_neg (by simp), isElem_renames, helems, plain_renames mixed true _ h.named hp]
    rfl
  rw [fromXml_of (read_dom true h), bind_pretty _ [] (by simp) _ hpl]
  show classify (decl true :: attrs) (resolve (decl true :: attrs) (tagOf true "ttd".toList)) (resolveKids (decl true :: attrs) (renames (tagOf true) kids)) = _
  rw [tag_resolve true _ _ (by decide +kernel), resolve_renames true _ _ h.named]
  unfold classify; dsimp only
  rw [if_pos rfl, undeclared_filter h.undeclared]

/-- **C114, false.** A document written with the prefix is never read as an EBU-TT-D document, whatever it contains: the root is not renamed,
is taken for that of an EBU-TT Live document, and has no sequence identifier. -/
theorem C114_false_prefixed (mixed : Text → Bool) (d : Doc) (h : Sound d.attrs d.kids) (hi : d.implicit = false)
    (hs : ∀ a ∈ d.attrs, localOf a.1 ≠ "sequenceIdentifier".toList) :
    fromXml mixed d.xml = .raised := by
  obtain ⟨i, attrs, kids⟩ := d
  replace hi : i = false := hi
  subst hi
  replace h : Sound attrs kids := h
  replace hs : ∀ a ∈ attrs, localOf a.1 ≠ "sequenceIdentifier".toList := hs
  have h2 : (decl false :: attrs).any (fun a => decide (localOf a.1 = "sequenceIdentifier".toList)) = false := by
    rw [List.any_cons, Bool.or_eq_false_iff]
    refine ⟨by decide +kernel, ?_⟩
    rw [List.any_eq_false]
    intro a ha
    rw [decide_eq_true_eq]
    exact hs a ha
  rw [fromXml_of (read_dom false h), pretty, bindRead]
  show classify (decl false :: attrs) (resolve (decl false :: attrs) (tagOf false "tt".toList)) _ = _
  rw [tag_resolve false _ _ (by decide +kernel)]
  exact classify_live h2 _

/-- **C114, false.** Whatever is asked of the encoder, the documents it sends are written with the prefix, and the toolkit cannot read them: the
setting only reaches a document that is never sent. -/
theorem C114_false_setting (mixed : Text → Bool) (defaultNs : Bool) (as0 : List (Text × Text)) (ks0 : List X)
    (attrs : List (Text × Text)) (kids : List X) (h : Sound attrs kids)
    (hs : ∀ a ∈ attrs, localOf a.1 ≠ "sequenceIdentifier".toList) :
    let d := (Encoder.make defaultNs as0 ks0).send attrs kids
    (∃ y, readDoc d.xml = some y ∧ tags y = ("tt".toList :: tagss kids).map (fun n => "tt:".toList ++ n)) ∧
    fromXml mixed d.xml = .raised :=
  ⟨C114_tags (Doc.fromBinding attrs kids) h, C114_false_prefixed mixed (Doc.fromBinding attrs kids) h rfl hs⟩

/-! ### Witnesses -/

def exAttrs : List (Text × Text) := [("ttp:timeBase".toList, "media".toList), ("xml:lang".toList, "en".toList)]
def exKids : List X :=
  [.elem "head".toList [] [], .elem "body".toList [] [.elem "div".toList [] [.elem "p".toList [("xml:id".toList, "p1".toList)] [.text "a < b".toList]]]]

/-- The hypotheses are met. -/
theorem ex_sound : Sound exAttrs exKids :=
  ⟨by decide +kernel, by decide +kernel, by decide +kernel, by
    simp only [exKids, NamedAll, Named, and_true]
    decide +kernel⟩

example : exKids.all X.isElem = true ∧ plains (fun t => t = "p".toList || t = "span".toList) exKids = true ∧
    (∀ a ∈ exAttrs, localOf a.1 ≠ "sequenceIdentifier".toList) := by decide +kernel

example : (Doc.fromBinding exAttrs [.elem "body".toList [] []]).xml =
    "<?xml version=\"1.0\" ?>\n<tt:tt xmlns:tt=\"http://www.w3.org/ns/ttml\" ttp:timeBase=\"media\" xml:lang=\"en\">\n  <tt:body/>\n</tt:tt>\n".toList ∧
    ((Doc.fromBinding exAttrs [.elem "body".toList [] []]).setImplicit true).xml =
    "<?xml version=\"1.0\" ?>\n<tt xmlns=\"http://www.w3.org/ns/ttml\" ttp:timeBase=\"media\" xml:lang=\"en\">\n  <body/>\n</tt>\n".toList := by
  decide +kernel

end Verif.Xml.Ttd
