import Verif.Base.Err
import Mathlib.Data.List.Basic

/-! Pickling of bound methods (pacal/__init__.py:69-105).  With parallel evaluation, the default on posix systems
(params.py:37), every method handed to a worker process goes through these two functions. -/

namespace Pacal.Pickle

/-- names, as lists of characters -/
abbrev Name := List Char

/-- a function with its `__name__`, the name in its `def` statement -/
structure Fn (β : Type) where
  name : Name
  body : β
  deriving DecidableEq, Repr

/-- a class: its `__name__` and its `__dict__`, as far as it contains functions -/
structure Cls (β : Type) where
  name : Name
  dict : List (Name × Fn β)
  deriving DecidableEq, Repr

/-- an object: the `__mro__` of its class (the class itself first) and the names in its own `__dict__`.
Simplification: the object is pickled and unpickled to an equal one (a copy in another process); its truth value is
true, as for every class in pacal without `__len__` and `__bool__`. -/
structure Obj (β : Type) where
  cls : Cls β
  bases : List (Cls β)
  attrs : List Name
  deriving DecidableEq, Repr

/-- `__mro__` -/
def Obj.mro {β : Type} (o : Obj β) : List (Cls β) := o.cls :: o.bases

/-- a bound method: `__self__` and `__func__` -/
structure Method (β : Type) where
  self : Obj β
  func : Fn β
  deriving DecidableEq, Repr

/-- `func_name.startswith('__') and not func_name.endswith('__')` (`__init__.py:74`) -/
def isPrivate (n : Name) : Bool := ['_', '_'].isPrefixOf n && !['_', '_'].isSuffixOf n

/-- `cls.__name__.lstrip('_')` (`__init__.py:76`) -/
def lstrip (n : Name) : Name := n.dropWhile (· == '_')

/-- `_pickle_method` (`__init__.py:69-78`): the arguments for `_unpickle_method` -/
def pickle {β : Type} (m : Method β) : Name × Obj β × Cls β :=
  let cls := m.self.cls
  let name := m.func.name
  let name := if isPrivate name then '_' :: lstrip cls.name ++ name else name
  (name, m.self, cls)

/-- the first function stored under `name` (the loop of `__init__.py:84-90`) -/
def find {β : Type} (name : Name) : List (Cls β) → Option (Fn β)
  | [] => none
  | c :: cs => match c.dict.lookup name with
    | some f => some f
    | none => find name cs

/-- `_unpickle_method` (`__init__.py:80-91`), for the class of the object: an instance attribute of the same name puts
the object in the place of the class, and an object has no `__mro__`; if no class has the name the variable `func` was
never assigned -/
def unpickle {β : Type} (a : Name × Obj β × Cls β) : Except PyErr (Method β) :=
  if a.1 ∈ a.2.1.attrs then .error .attribute
  else match find a.1 (a.2.2 :: a.2.1.bases) with
    | some f => .ok ⟨a.2.1, f⟩
    | none => .error .unbound

end Pacal.Pickle
