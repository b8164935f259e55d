import Verif.Doc.Tree

/-
Model of the timing validation: `/repo/ebu_tt_live/bindings/validation/timing.py`
(`TimingValidationMixin`, `BodyTimingValidationMixin`) driven by the depth first traversal of
`/repo/ebu_tt_live/bindings/pyxb_utils.py:94-142` and `bindings/validation/validator.py`.
-/
namespace Verif.Doc

/-- Exceptions of the timing validation. -/
inductive TErr where
  /-- the sanity check of timing.py:172-176 -/
  | logicError
  /-- `list.pop()` on an empty list -/
  | indexError
deriving DecidableEq, Repr

/-- The timing part of the semantic dataset (`timing_syncbase`, `timing_begin_stack`,
`timing_end_stack` with the top first, `availability_time`).  `validate()` passes
`availability_time or timedelta()`, so it is always a time (documents/ebutt3.py:488-493). -/
structure Ctx where
  sync : Int
  begs : List Int
  ends : List Int
  avail : Int
deriving DecidableEq, Repr

/-- `x and x.timedelta or None` (timing.py:39-40, 324): a zero time is falsy and becomes `None`. -/
def eff : Option TV → Option Int
  | none => none
  | some v => if v.delta = 0 then none else some v.delta

/-- `_element_badly_timed` (timing.py:46-49).  The attribute values are strings, so `<=` is the
order of their texts. -/
def badly (a : Att) : Bool :=
  match a.beg, a.fin with
  | some b, some e => !decide (b.text < e.text)
  | _, _ => false

/-- `TimingValidationMixin._pre_calculate_end` (timing.py:60-70): the proposed end, if any. -/
def baseEnd (c : Ctx) (a : Att) : Option Int :=
  match eff a.fin with
  | none => none
  | some e =>
    some (match c.ends with
      | [] => c.sync + e
      | t :: _ => min (c.sync + e) t)

/-- `_pre_calculate_end` with the body's extension for `dur` (timing.py:330-349). -/
def preEnd (c : Ctx) (a : Att) : Option Int :=
  match a.kind with
  | .body =>
    match eff a.dur with
    | some d =>
      some (match eff a.beg, eff a.fin with
        | some b, some e => min (d + b) e
        | some b, none => d + b
        | none, none => c.avail + d
        | none, some e => min (c.avail + d) e)
    | none => baseEnd c a
  | _ => baseEnd c a

/-- `_semantic_preprocess_timing` (timing.py:108-127): the new context, `_computed_begin_time` and
`_computed_end_time`.  `_pre_assign_end` is 56-58, `_pre_assign_begin` 72-84. -/
def pre (c : Ctx) (a : Att) : Ctx × Int × Option Int :=
  let ce := preEnd c a
  let c := match ce with
    | none => c
    | some e => { c with ends := e :: c.ends }
  let c := match eff a.beg with
    | none => c
    | some b => { c with begs := b :: c.begs, sync := c.sync + b }
  (c, if c.avail ≠ 0 then max c.sync c.avail else c.sync, ce)

/-- The well timed timed children (timing.py:186-188, 223-225), by their computed times. -/
def timedKids : List (Node Lab) → List Comp
  | [] => []
  | .elem x _ :: ks => if badly x.att then timedKids ks else x.comp :: timedKids ks
  | _ :: ks => timedKids ks

/-- `max` over the children's ends, `None` if any is `None` (timing.py:200-207). -/
def maxEnd : List Comp → Option Int
  | [] => none
  | [k] => k.e
  | k :: ks =>
    match k.e, maxEnd ks with
    | some a, some b => some (max a b)
    | _, _ => none

/-- `min` over the children's begins (timing.py:101-103). -/
def minBegin (k : Comp) (ks : List Comp) : Int := ks.foldl (fun m x => min m x.b) k.b

/-- `_post_pop_begin` (timing.py:129-138): the context afterwards. -/
def popBegin (c : Ctx) (a : Att) : Except TErr Ctx :=
  match eff a.beg with
  | none => .ok c
  | some _ =>
    match c.begs with
    | [] => .error .indexError
    | b :: bs => .ok { c with begs := bs, sync := c.sync - b }

/-- Whether `_post_pop_end` pops (timing.py:143, 357). -/
def popsEnd (a : Att) : Bool :=
  match a.kind with
  | .body => (eff a.fin).isSome || (eff a.dur).isSome
  | _ => (eff a.fin).isSome

/-- `_post_pop_end` (timing.py:140-147, 354-361). -/
def popEnd (c : Ctx) (a : Att) : Except TErr (Ctx × Option Int) :=
  if popsEnd a then
    match c.ends with
    | [] => .error .indexError
    | e :: es => .ok ({ c with ends := es }, some e)
  else .ok (c, none)

/-- The end assigned on the way up when none was specified (timing.py:180-207). -/
def postEnd (c : Ctx) (ce : Option Int) (kids : List Comp) : Option Int :=
  match ce with
  | some e => some e
  | none =>
    match kids with
    | [] => c.ends.head?
    | _ => maxEnd kids

/-- `_post_calculate_begin` (timing.py:89-106). -/
def postBegin (cb : Int) (kids : List Comp) : Int :=
  match kids with
  | [] => cb
  | k :: ks => if minBegin k ks > cb then minBegin k ks else cb

/-- `_semantic_postprocess_timing` (timing.py:149-229). -/
def post (c : Ctx) (a : Att) (cb : Int) (ce : Option Int) (kids : List (Node Lab)) :
    Except TErr (Ctx × Comp) := do
  let c ← popBegin c a
  let (c, e) ← popEnd c a
  if e.isSome ≠ ce.isSome then throw .logicError
  let ks := timedKids kids
  let ce := postEnd c ce ks
  let (cb, ce) := if a.kind = .body ∧ badly a = true then (0, none) else (cb, ce)
  let cb := if (eff a.beg).isNone then postBegin cb ks else cb
  return (c, { b := cb, e := ce })

mutual
/-- Validation of an element and its content (pyxb_utils.py:120-142): before hook, children, after
hook.  Text and line breaks have no timing hooks. -/
def validate (c : Ctx) : Node Att → Except TErr (Ctx × Node Lab)
  | .text s => .ok (c, .text s)
  | .br => .ok (c, .br)
  | .elem a kids => do
    let (c, cb, ce) := pre c a
    let (c, kids) ← validateL c kids
    let (c, comp) ← post c a cb ce kids
    return (c, .elem { att := a, comp := comp } kids)
/-- The children in order (pyxb_utils.py:109-118). -/
def validateL (c : Ctx) : List (Node Att) → Except TErr (Ctx × List (Node Lab))
  | [] => .ok (c, [])
  | k :: ks => do
    let (c, k) ← validate c k
    let (c, ks) ← validateL c ks
    return (c, k :: ks)
end

/-- The context `tt` sets up before its body is reached (bindings/__init__.py:611-620) and the
availability time of `validate()` (documents/ebutt3.py:488-493). -/
def initCtx (avail : Int) : Ctx := { sync := 0, begs := [], ends := [], avail := avail }

/-- `EBUTT3Document.validate` for a document with a body (documents/ebutt3.py:484-514): the body with
the computed times of every element. -/
def validateDoc (avail : Int) (body : Node Att) : Except TErr (Node Lab) :=
  (validate (initCtx avail) body).map (·.2)

end Verif.Doc
