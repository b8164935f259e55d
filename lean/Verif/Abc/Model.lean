/-
Model of the metaclass of nodes, carriages and adapters (`/repo/ebu_tt_live/utils.py:255-359`), of the part of
Python's class statement it rests on (the order of the bases, looking up an attribute, the abstract methods of
`abc.ABCMeta`), and of the registry of data adapters (`/repo/ebu_tt_live/adapters/base.py:12-73`).
Classes are known by the number of the class statement that makes them.
-/
namespace Verif.Abc

/-- The validators of `AbstractStaticMember` (utils.py:255-275, 302-309): `validate_types_only`, or the default
`_assert_asm_is_defined`. -/
inductive Check where
  | typesOnly
  | defined
deriving DecidableEq, Repr

/-- What can stand in a tuple of types (utils.py:265-269): a class, `ANY`, or something else. -/
inductive Item where
  | cls (n : Nat)
  | any
  | junk
deriving DecidableEq, Repr

/-- The values of attributes of a class, as far as the metaclass tells them apart. -/
inductive Val where
  /-- `AbstractStaticMember(check)` -/
  | static (check : Check)
  /-- a function, property or class method marked abstract -/
  | absMethod
  /-- a class, `ANY`, or another object, not a tuple -/
  | one (i : Item)
  /-- a tuple -/
  | many (is : List Item)
  /-- `None` -/
  | nothing
  /-- `NotImplemented` -/
  | notImpl
deriving DecidableEq, Repr

/-- A namespace: what a class body assigns. -/
abbrev Body := List (String × Val)

/-- `isinstance(item, (type, types.ClassType)) or item is ANY` (utils.py:269). -/
def Item.isType : Item → Bool
  | .cls _ => true
  | .any => true
  | .junk => false

/-- `AbstractStaticMember.validate` (utils.py:255-275, 308-309); `false` if it raises `TypeError`.
`ANY` equals everything, so the default validator takes it for `None` (utils.py:256, 281-282). -/
def accepts : Check → Val → Bool
  | .typesOnly, .one i => i.isType
  | .typesOnly, .many is => is.all Item.isType
  | .typesOnly, _ => false
  | .defined, .nothing => false
  | .defined, .notImpl => false
  | .defined, .one .any => false
  | .defined, _ => true

/-! ### The order of the bases -/

/-- A candidate of the C3 merge is in the tail of none of the lists. -/
def free (ls : List (List Nat)) (h : Nat) : Bool := ls.all (fun l => !(l.tail.contains h))

/-- The first list whose head can be taken. -/
def pick (ls : List (List Nat)) : Option Nat := (ls.filterMap List.head?).find? (free ls)

/-- The head taken away from the lists that begin with it. -/
def dropHead (h : Nat) (l : List Nat) : List Nat := if l.head? = some h then l.tail else l

/-- The C3 merge of Python's `type.__new__` (`mro_implementation`); `none` for "Cannot create a consistent method
resolution order".  The number bounds the steps; every step takes at least one element away. -/
def merge : Nat → List (List Nat) → Option (List Nat)
  | n, ls =>
    if ls.all List.isEmpty then some []
    else match n with
      | 0 => none
      | n + 1 => match pick ls with
        | none => none
        | some h => (merge n (ls.map (dropHead h))).map (h :: ·)

/-- The method resolution order of a new class; `object`, which is always last and has none of the attributes in
question, is left out. -/
def linearise (id : Nat) (bases : List Nat) (mros : List (List Nat)) : Option (List Nat) :=
  (merge ((mros ++ [bases]).map List.length).sum (mros ++ [bases])).map (id :: ·)

/-! ### Looking up attributes -/

/-- The first class in the method resolution order whose namespace has the attribute. -/
def owner (ns : Nat → Body) (mro : List Nat) (m : String) : Option Nat :=
  mro.find? (fun i => ((ns i).lookup m).isSome)

/-- `getattr(cls, m)`; `none` for `AttributeError`. -/
def look (ns : Nat → Body) (mro : List Nat) (m : String) : Option Val :=
  (owner ns mro m).bind (fun i => (ns i).lookup m)

/-! ### Classes -/

/-- A class that has been made. -/
structure Cls where
  id : Nat
  bases : List Nat
  mro : List Nat
  /-- is its metaclass `AutoRegisteringABCMeta`? -/
  auto : Bool
  /-- `__abstractmethods__` -/
  abstracts : List String
  /-- `_abc_static_members` (utils.py:351) -/
  statics : List String
  /-- does its body define `auto_register_impl`?  Otherwise it gets one that does nothing (utils.py:349-350). -/
  hook : Bool
  /-- `_abc_interface` (utils.py:352) -/
  iface : Bool
deriving DecidableEq, Repr

/-- An entry of the registry of adapters: types expected and provided, and the class. -/
structure Entry where
  expects : Val
  provides : Val
  cls : Nat
deriving DecidableEq, Repr

/-- Everything there is: the classes, the namespaces, the registry (adapters/base.py:18) and the number of the next
class statement. -/
structure World where
  classes : List Cls := []
  ns : Nat → Body := fun _ => []
  registry : List Entry := []
  next : Nat := 0

/-- The class with a number. -/
def World.get (w : World) (i : Nat) : Option Cls := w.classes.find? (fun c => c.id = i)

/-- A class statement: its bases, what its body assigns, whether the body assigns `__metaclass__`, and whether it
defines `auto_register_impl` (as adapters/base.py:22-44 does). -/
structure Stmt where
  bases : List Nat
  body : Body
  names : Bool := false
  hook : Bool := false
deriving Repr

/-- The names that a namespace binds to an `AbstractStaticMember` (utils.py:321-323). -/
def ownStatics (b : Body) : List String :=
  (b.map Prod.fst).filter (fun m => match b.lookup m with | some (.static _) => true | _ => false)

/-- The names that a namespace binds to something abstract (`abc.ABCMeta.__new__`). -/
def ownAbstracts (b : Body) : List String :=
  (b.map Prod.fst).filter (fun m => b.lookup m = some .absMethod)

/-- `__abstractmethods__` (`abc.ABCMeta.__new__`): the abstract names of the body, and those of the bases that are
still abstract when looked up on the class. -/
def abstractsOf (get : String → Option Val) (body : Body) (bases : List Cls) : List String :=
  ownAbstracts body ++ (bases.flatMap Cls.abstracts).filter (fun m => get m = some .absMethod)

/-- Why a class statement fails. -/
inductive Err where
  /-- a base does not exist -/
  | nameError
  /-- the bases cannot be ordered -/
  | mroError
  /-- a member is missing or does not match (`TypeError`) -/
  | member
  /-- registering the class raises -/
  | register
deriving DecidableEq, Repr

/-- The validator a class declares for a member: `getattr(base, base_member)` (utils.py:339). -/
def checkOf (ns : Nat → Body) (i : Nat) (m : String) : Check :=
  match (ns i).lookup m with
  | some (.static k) => k
  | _ => .defined

/-- The members declared by one base (utils.py:332-340): members that are missing are collected, others are
validated; those validated already are passed over.  `none` if a validator raises.  The set is gone through in some
order, which does not matter to the outcome. -/
def checkMembers (get : String → Option Val) (check : String → Check) :
    List String → List String → List String → Option (List String × List String)
  | [], missing, valid => some (missing, valid)
  | m :: ms, missing, valid =>
    if m ∈ valid then checkMembers get check ms missing valid
    else match get m with
      | none => checkMembers get check ms (m :: missing) valid
      | some (.static _) => checkMembers get check ms (m :: missing) valid
      | some .notImpl => checkMembers get check ms (m :: missing) valid
      | some v => if accepts (check m) v then checkMembers get check ms missing (m :: valid) else none

/-- `expects()` and `provides()` of a class (adapters/base.py:55-73): `TypeError` if the member is still abstract,
`AttributeError` if there is none.  A class does not override them in this model. -/
def typeOf (get : String → Option Val) (m : String) : Option Val :=
  match get m with
  | some (.static _) => none
  | v => v

/-- The adapter registered for two types (adapters/base.py:46-53); `none` for `ValueError`.  Keys are compared by
value; the effect of `ANY` on dictionary keys with the same hash is left out. -/
def find (reg : List Entry) (e p : Val) : Option Nat :=
  (reg.find? (fun x => x.expects = e ∧ x.provides = p)).map Entry.cls

/-- `==` on items: `ANY` equals everything (utils.py:281-282). -/
def Item.eqv : Item → Item → Bool
  | .any, _ => true
  | _, .any => true
  | a, b => decide (a = b)

/-- `==` on tuples. -/
def eqvL : List Item → List Item → Bool
  | [], [] => true
  | a :: as, b :: bs => a.eqv b && eqvL as bs
  | _, _ => false

/-- `==` on the values of members. -/
def Val.eqv : Val → Val → Bool
  | .one .any, _ => true
  | _, .one .any => true
  | .one a, .one b => a.eqv b
  | .many as, .many bs => eqvL as bs
  | a, b => decide (a = b)

/-- `auto_register_impl` of the data adapters (adapters/base.py:22-44): the first class for a pair of types stays.
Whether there is one is looked up with `==` in the list of keys (line 27); the warning then looks it up by its hash
(line 32), which is a `KeyError` if they are equal only because of `ANY`.  `none` for that and if the types are
missing. -/
def register (reg : List Entry) (get : String → Option Val) (id : Nat) : Option (List Entry) :=
  match typeOf get "_expects", typeOf get "_provides" with
  | some e, some p =>
    if reg.any (fun x => decide (x.expects = e) && x.provides.eqv p) then
      if (find reg e p).isSome then some reg else none
    else some (reg ++ [⟨e, p, id⟩])
  | _, _ => none

/-- The loop over the bases (utils.py:330-342).  What has been registered stays registered when a later base
raises. -/
def checkBases (ns : Nat → Body) (get : String → Option Val) (id : Nat) :
    List Cls → List String → List String → List Entry → List Entry × Except Err (List String)
  | [], missing, _, reg => (reg, .ok missing)
  | b :: bs, missing, valid, reg =>
    if b.auto then
      match checkMembers get (checkOf ns b.id) b.statics missing valid with
      | none => (reg, .error .member)
      | some (missing', valid') =>
        if b.hook then
          match register reg get id with
          | none => (reg, .error .register)
          | some reg' => checkBases ns get id bs missing' valid' reg'
        else checkBases ns get id bs missing' valid' reg
    else checkBases ns get id bs missing valid reg

/-- The namespaces with that of a new class. -/
def addNs (ns : Nat → Body) (id : Nat) (b : Body) : Nat → Body := fun i => if i = id then b else ns i

/-- A class statement (utils.py:319-353).  The metaclass is inherited.  A class without it is made by `type`, which
knows nothing of abstract members; its `auto_register_impl` is never called. -/
def exec (w : World) (s : Stmt) : World × Except Err Cls :=
  let id := w.next
  let w1 := { w with next := w.next + 1 }
  match s.bases.mapM w.get with
  | none => (w1, .error .nameError)
  | some bs =>
    match linearise id s.bases (bs.map Cls.mro) with
    | none => (w1, .error .mroError)
    | some mro =>
      let ns := addNs w.ns id s.body
      if s.names || bs.any Cls.auto then
        let get := look ns mro
        let abstracts := abstractsOf get s.body bs
        let c : Cls := ⟨id, s.bases, mro, true, abstracts, ownStatics s.body, s.hook, s.names⟩
        if abstracts.isEmpty then
          match checkBases ns get id bs (ownStatics s.body) [] w.registry with
          | (reg, .error e) => ({ w1 with registry := reg }, .error e)
          | (reg, .ok missing) =>
            if missing.isEmpty then
              ({ w1 with classes := w.classes ++ [c], ns := ns, registry := reg }, .ok c)
            else ({ w1 with registry := reg }, .error .member)
        else ({ w1 with classes := w.classes ++ [c], ns := ns }, .ok c)
      else
        let c : Cls := ⟨id, s.bases, mro, false, [], [], false, false⟩
        ({ w1 with classes := w.classes ++ [c], ns := ns }, .ok c)

/-- What can happen: a class statement, or garbage collection, after which the registry, which holds its classes
weakly (adapters/base.py:25), has lost the classes whose statement failed. -/
inductive Ev where
  | stmt (s : Stmt)
  | collect
deriving Repr

def step (w : World) : Ev → World
  | .stmt s => (exec w s).1
  | .collect => { w with registry := w.registry.filter (fun e => w.classes.any (fun c => c.id = e.cls)) }

def run (evs : List Ev) : World := evs.foldl step {}

/-- `cls(…)` gets as far as the initialiser (utils.py:355-359 and `object.__new__`): the body does not assign
`__metaclass__` and no abstract method is left. -/
def Cls.instantiable (c : Cls) : Bool := !c.iface && c.abstracts.isEmpty

end Verif.Abc
