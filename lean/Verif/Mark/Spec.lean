import Verif.Mark.Model

/-! Small specification: what is said about each piece of text by the elements around it. -/
namespace Verif.Mark

open Verif.Doc (Node Att Kind Lab Comp Win Item Overlaps)

/-- What holds at a place in a document: the language and the white space handling in force there, and the agents and
roles given by the elements around it, outermost first. -/
structure Around where
  lang : Option (List Char)
  space : Option (List Char)
  agents : List (List Char)
  roles : List (List Char)
deriving DecidableEq, Repr

/-- Entering an element: its own language and white space handling take over, its agent and role are added. -/
def Around.enter (c : Around) (m : Marks) : Around :=
  { lang := m.lang <|> c.lang
    space := m.space <|> c.space
    agents := c.agents ++ m.agent.toList
    roles := c.roles ++ m.role.toList }

mutual
/-- The texts and line breaks of a tree in document order, each with what holds there. -/
def said {α : Type} (c : Around) : Node (α × Marks) → List (Item × Around)
  | .text s => [(.text s, c)]
  | .br => [(.br, c)]
  | .elem x kids => saidL (c.enter x.2) kids
def saidL {α : Type} (c : Around) : List (Node (α × Marks)) → List (Item × Around)
  | [] => []
  | k :: ks => said c k ++ saidL c ks
end

mutual
/-- The same for the part of a validated document that falls into a window: only inside elements that overlap it. -/
def saidIn (w : Win) (c : Around) : Node (Lab × Marks) → List (Item × Around)
  | .text s => [(.text s, c)]
  | .br => [(.br, c)]
  | .elem x kids => if Overlaps w x.1.comp then saidInL w (c.enter x.2) kids else []
def saidInL (w : Win) (c : Around) : List (Node (Lab × Marks)) → List (Item × Around)
  | [] => []
  | k :: ks => saidIn w c k ++ saidInL w c ks
end

/-- Line breaks, and texts other than white space. -/
def shows (i : Item × Around) : Bool :=
  match i.1 with
  | .br => true
  | .text s => !(s.all Doc.isWs)

/-- What holds directly inside the tt element. -/
def outer (lang space : Option (List Char)) : Around := { lang := lang, space := space, agents := [], roles := [] }

/-- The texts of a document. -/
def MDoc.said {α : Type} (d : MDoc α) : List (Item × Around) := Mark.said (outer d.lang d.space) d.body

/-- The texts of a validated document in a window. -/
def MDoc.saidIn (w : Win) (d : MDoc Lab) : List (Item × Around) := Mark.saidIn w (outer d.lang d.space) d.body

/-- The texts of an EBU-TT-D document. -/
def DDoc.said (d : DDoc) : List (Item × Around) :=
  match d.body with
  | none => []
  | some b => Mark.said (outer d.lang d.space) b

mutual
/-- The schema: body and div have neither `xml:lang` nor `xml:space` (ebutt_live.xsd:134-232). -/
def Marked {α : Type} (kd : α → Kind) : Node (α × Marks) → Prop
  | .elem x kids => ((kd x.1 = .body ∨ kd x.1 = .div) → x.2.lang = none ∧ x.2.space = none) ∧ MarkedL kd kids
  | _ => True
def MarkedL {α : Type} (kd : α → Kind) : List (Node (α × Marks)) → Prop
  | [] => True
  | k :: ks => Marked kd k ∧ MarkedL kd ks
end

mutual
/-- No div has a `ttm:role`. -/
def NoDivRole {α : Type} (kd : α → Kind) : Node (α × Marks) → Prop
  | .elem x kids => (kd x.1 = .div → x.2.role = none) ∧ NoDivRoleL kd kids
  | _ => True
def NoDivRoleL {α : Type} (kd : α → Kind) : List (Node (α × Marks)) → Prop
  | [] => True
  | k :: ks => NoDivRole kd k ∧ NoDivRoleL kd ks
end

/-- The agent and role of a body. -/
def bodyMarks {α : Type} : Node (α × Marks) → Option (List Char) × Option (List Char)
  | .elem x _ => (x.2.agent, x.2.role)
  | _ => (none, none)

end Verif.Mark
