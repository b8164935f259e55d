/-!
# Documents as text

How a document becomes the text that is sent or stored and a document again: `toxml()` of a binding
(`/repo/ebu_tt_live/bindings/__init__.py:514-528, 1119-1141`, `bindings/_ebuttlm.py:25-39`), called by `get_xml()`
(`documents/ebutt3.py:242-246, 533-537`, `documents/ebuttd.py:64-72`), which prints the tree with
`toprettyxml(indent='  ')`, and `CreateFromDocument`.

The printing is that of the standard library (`xml.dom.minidom`, `Element.writexml` and `Text.writexml`), the
reading that of its XML parser; both are modelled here for the part of XML that printing produces: elements,
attributes in double quotes, text, the four entities, the XML declaration.  That a binding becomes a tree
(`toDOM`) and a tree a binding is the work of PyXB and is represented by its effect on texts (`bindRead`).
-/
namespace Verif.Xml

abbrev Text := List Char

/-- A tree.  Namespace declarations count as attributes. -/
inductive X where
  | elem (tag : Text) (attrs : List (Text × Text)) (kids : List X)
  | text (d : Text)

/-! ### Writing -/

/-- `_write_data` of minidom. -/
def escChar (c : Char) : Text :=
  if c = '&' then "&amp;".toList
  else if c = '<' then "&lt;".toList
  else if c = '"' then "&quot;".toList
  else if c = '>' then "&gt;".toList
  else [c]

def escape (d : Text) : Text := d.flatMap escChar

/-- An attribute.  (They are written sorted by name; the list is taken to be sorted.) -/
def writeAttr (a : Text × Text) : Text := ' ' :: a.1 ++ '=' :: '"' :: escape a.2 ++ ['"']

/-- The only child, if it is a text. -/
def alone : List X → Option Text
  | [.text d] => some d
  | _ => none

mutual
/-- `writexml` of a node with `addindent='  '` and `newl='\n'` (bindings/__init__.py:525-528): a text that is
the only child of its element is written as it is, any other text on lines of its own. -/
def writeNode (ind : Text) : X → Text
  | .text d => ind ++ escape d ++ ['\n']
  | .elem tag attrs kids =>
    ind ++ '<' :: tag ++ attrs.flatMap writeAttr ++
      (if kids.isEmpty = true then ['/', '>', '\n']
       else
        match alone kids with
        | some d => '>' :: escape d ++ '<' :: '/' :: tag ++ ['>', '\n']
        | none => '>' :: '\n' :: writeKids (ind ++ [' ', ' ']) kids ++ ind ++ '<' :: '/' :: tag ++ ['>', '\n'])
def writeKids (ind : Text) : List X → Text
  | [] => []
  | k :: ks => writeNode ind k ++ writeKids ind ks
end

/-- `toxml()` (bindings/__init__.py:521-528): the XML declaration and the tree. -/
def writeDoc (root : X) : Text := "<?xml version=\"1.0\" ?>\n".toList ++ writeNode [] root

/-! ### Reading -/

/-- A text added to the children read so far (the last first): adjacent texts are one. -/
def glue (l : List X) (a : Text) : List X :=
  if a = [] then l
  else
    match l with
    | .text b :: l => .text (b ++ a) :: l
    | l => .text a :: l

/-- Where the reader is. -/
inductive Mode where
  | text
  | ent (b : Text)
  | lt
  | decl
  | name (n : Text)
  | gap (n : Text) (as : List (Text × Text))
  | attr (n : Text) (as : List (Text × Text)) (a : Text)
  | eq (n : Text) (as : List (Text × Text)) (a : Text)
  | val (n : Text) (as : List (Text × Text)) (a v : Text)
  | valEnt (n : Text) (as : List (Text × Text)) (a v b : Text)
  | slash (n : Text) (as : List (Text × Text))
  | close (n : Text)
  | bad

/-- The children read so far of the innermost open element (the last first), and the elements around it. -/
structure St where
  kids : List X
  up : List (Text × List (Text × Text) × List X)
  mode : Mode

/-- The predefined entities. -/
def entity (b : Text) : Option Char :=
  if b = "amp".toList then some '&'
  else if b = "lt".toList then some '<'
  else if b = "gt".toList then some '>'
  else if b = "quot".toList then some '"'
  else none

def blank (c : Char) : Bool := c = ' ' || c = '\n' || c = '\t' || c = '\r'

/-- A start tag is complete. -/
def St.opened (s : St) (n : Text) (as : List (Text × Text)) : St := ⟨[], (n, as, s.kids) :: s.up, .text⟩

/-- An XML parser, one character at a time. -/
def step (s : St) (c : Char) : St :=
  match s.mode with
  | .text =>
    if c = '<' then { s with mode := .lt }
    else if c = '&' then { s with mode := .ent [] }
    else { s with kids := glue s.kids [if c = '\r' then '\n' else c] }
  | .ent b =>
    if c = ';' then
      (match entity b with
       | some d => { s with kids := glue s.kids [d], mode := .text }
       | none => { s with mode := .bad })
    else { s with mode := .ent (b ++ [c]) }
  | .lt =>
    if c = '/' then { s with mode := .close [] }
    else if c = '?' then { s with mode := .decl }
    else { s with mode := .name [c] }
  | .decl => if c = '>' then { s with mode := .text } else s
  | .name n =>
    if c = '>' then s.opened n []
    else if c = '/' then { s with mode := .slash n [] }
    else if blank c = true then { s with mode := .gap n [] }
    else { s with mode := .name (n ++ [c]) }
  | .gap n as =>
    if c = '>' then s.opened n as
    else if c = '/' then { s with mode := .slash n as }
    else if blank c = true then s
    else { s with mode := .attr n as [c] }
  | .attr n as a => if c = '=' then { s with mode := .eq n as a } else { s with mode := .attr n as (a ++ [c]) }
  | .eq n as a => if c = '"' then { s with mode := .val n as a [] } else { s with mode := .bad }
  | .val n as a v =>
    if c = '"' then { s with mode := .gap n (as ++ [(a, v)]) }
    else if c = '&' then { s with mode := .valEnt n as a v [] }
    else { s with mode := .val n as a (v ++ [if blank c = true then ' ' else c]) }
  | .valEnt n as a v b =>
    if c = ';' then
      (match entity b with
       | some d => { s with mode := .val n as a (v ++ [d]) }
       | none => { s with mode := .bad })
    else { s with mode := .valEnt n as a v (b ++ [c]) }
  | .slash n as => if c = '>' then { s with kids := .elem n as [] :: s.kids, mode := .text } else { s with mode := .bad }
  | .close n =>
    if c = '>' then
      (match s.up with
       | (t, as, l) :: u => if t = n then ⟨.elem t as s.kids.reverse :: l, u, .text⟩ else { s with mode := .bad }
       | [] => { s with mode := .bad })
    else { s with mode := .close (n ++ [c]) }
  | .bad => s

def run (s : St) (cs : Text) : St := cs.foldl step s

/-- Text of white space only. -/
def X.isBlank : X → Bool
  | .text d => d.all blank
  | .elem _ _ _ => false

/-- The document element of a text, if the text is well formed. -/
def readDoc (cs : Text) : Option X :=
  let s := run ⟨[], [], .text⟩ cs
  match s.up, s.mode, s.kids.filter (fun x => !x.isBlank) with
  | [], .text, [.elem t as ks] => some (.elem t as ks)
  | _, _, _ => none

/-! ### Bindings -/

/-- Without texts of white space only. -/
def dropBlank (l : List X) : List X := l.filter (fun x => !x.isBlank)

mutual
/-- What a binding keeps of a tree: the white space between the children of elements that cannot contain text
is dropped; `mixed` tells which can (xsd/ebutt_live.xsd:224, 279: `p` and `span`; also metadata with text). -/
def bindRead (mixed : Text → Bool) : X → X
  | .text d => .text d
  | .elem t as ks => .elem t as (if mixed t = true then bindKids mixed ks else dropBlank (bindKids mixed ks))
def bindKids (mixed : Text → Bool) : List X → List X
  | [] => []
  | k :: ks => bindRead mixed k :: bindKids mixed ks
end

end Verif.Xml
