import Verif.Wrap.Model

/-!
# Comparing XML: `compare_xml` (ebu_tt_live/utils.py:372-468)

The XML parser (`xml.dom.minidom.parseString`) is not modelled: it is a parameter that turns a text
into the nodes of a document, or fails.
-/
namespace Verif.CmpXml

abbrev Text := List Char

/-- Nodes of the parsed tree. `other` stands for everything that is neither an element, nor text, nor
a comment, CDATA sections and processing instructions for instance. -/
inductive Dom where
  | elem (tag : Text) (attrs : List (Text × Text)) (kids : List Dom)
  | text (data : Text)
  | comment
  | other (data : Text)

def Dom.isElem : Dom → Bool
  | .elem _ _ _ => true
  | _ => false

/-- The character class of `_norm_whitespace_re` (utils.py:413). -/
def blank (c : Char) : Bool := c = ' ' || c = '\t' || c = '\n'

/-- White space read and not yet copied: none, one character, or more. -/
inductive Run where
  | none
  | one (c : Char)
  | many

def Run.add : Run → Char → Run
  | .none, c => .one c
  | _, _ => .many

def Run.close : Run → Text
  | .none => []
  | .one c => [c]
  | .many => [' ']

/-- `_norm_whitespace_re.sub(' ', v)` (utils.py:413-416): two or more white space characters in a row
become one space. -/
def norm : Run → Text → Text
  | r, [] => r.close
  | r, c :: cs => if blank c then norm (r.add c) cs else r.close ++ c :: norm .none cs

/-- `child_text` (utils.py:418-420). -/
def childText : List Dom → Text
  | [] => []
  | .text d :: l => d ++ childText l
  | _ :: l => childText l

/-- `children` (utils.py:422-424). -/
def kidsOf (l : List Dom) : List Dom := l.filter Dom.isElem

/-- `attrs_dict(a) == attrs_dict(b)` (utils.py:429-430, :437): the same names with the same values.
(An element never has two attributes of the same name.) -/
def attrsEq (a b : List (Text × Text)) : Bool :=
  (a ++ b).all (fun p => decide (a.lookup p.1 = b.lookup p.1))

mutual
/-- `check_element` (utils.py:432-446). Called on elements only: the `tagName` of anything else would
be an `AttributeError`. -/
def check : Dom → Dom → Bool
  | .elem t a k, .elem t' a' k' =>
    decide (t = t') && decide (norm .none (childText k) = norm .none (childText k')) && attrsEq a a' && checkL k k'
  | .elem _ _ _, _ => false
  | .text _, _ => false
  | .comment, _ => false
  | .other _, _ => false
/-- The element children compared one by one (utils.py:439-445), skipping over the other nodes. -/
def checkL : List Dom → List Dom → Bool
  | [], l => (kidsOf l).isEmpty
  | k :: ks, l =>
    if k.isElem then
      match kidsOf l with
      | [] => false
      | d :: ds => check k d && checkL ks ds
    else checkL ks l
end

/-- `str.replace('\\n', '\n')`. -/
def unescape : Text → Text
  | [] => []
  | [c] => [c]
  | c :: d :: l => if c = '\\' ∧ d = 'n' then '\n' :: unescape l else c :: unescape (d :: l)

/-- `is_quoted_string` (utils.py:381-383) of a stripped text. -/
def quoted (s : Text) : Bool :=
  decide (s.length ≥ 2) && decide (s.head? = s.getLast?) && (decide (s.head? = some '"') || decide (s.head? = some '\''))

/-- `is_quoted_unicode` (utils.py:385-387) of a stripped text. -/
def quotedU (s : Text) : Bool :=
  decide (s.length ≥ 3) && decide (s.head? = some 'u') && decide (s.tail.head? = s.getLast?) &&
    (decide (s.tail.head? = some '"') || decide (s.tail.head? = some '\''))

/-- `strip_quotes` (utils.py:372-395). -/
def stripQuotes (want got : Text) : Text × Text :=
  if quoted (Wrap.strip want) && quoted (Wrap.strip got) then
    ((Wrap.strip want).tail.dropLast, (Wrap.strip got).tail.dropLast)
  else if quotedU (Wrap.strip want) && quotedU (Wrap.strip got) then
    ((Wrap.strip want).tail.tail.dropLast, (Wrap.strip got).tail.tail.dropLast)
  else (want, got)

/-- `want.startswith('<?xml')` (utils.py:459). -/
def declared (s : Text) : Bool := "<?xml".toList.isPrefixOf s

/-- `'<root>%s</root>' % s` (utils.py:460-462). -/
def wrap (s : Text) : Text := "<root>".toList ++ s ++ "</root>".toList

/-- `first_node` (utils.py:448-451): `None` if there are only comments. -/
def firstNode : List Dom → Option Dom
  | [] => none
  | .comment :: l => firstNode l
  | d :: _ => some d

/-- The root that is compared; `none` if the parser raises an exception or if what it finds first is
not an element, which raises one in `check_element`. -/
def rootOf (parse : Text → Option (List Dom)) (s : Text) : Option Dom :=
  match parse s with
  | none => none
  | some l => (firstNode l).filter Dom.isElem

/-- `check_element(want_root, got_root)` (utils.py:468), if both texts could be read. -/
def checkRoots : Option Dom → Option Dom → Option Bool
  | some a, some b => some (check a b)
  | _, _ => none

/-- `compare_xml` (utils.py:398-468); `none` is an exception. -/
def compareXml (parse : Text → Option (List Dom)) (want got : Text) : Option Bool :=
  let want' := unescape (Wrap.strip (stripQuotes want got).1)
  let got' := unescape (Wrap.strip (stripQuotes want got).2)
  let want'' := if declared want' then want' else wrap want'
  let got'' := if declared want' then got' else wrap got'
  checkRoots (rootOf parse want'') (rootOf parse got'')

end Verif.CmpXml
