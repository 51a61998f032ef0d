import Verif.Pickle.Model

/-! Attribute access in Python, as far as it is needed to say which methods are pickled. -/

namespace Pacal.Pickle
variable {β : Type}

/-- a name is private: it begins with two underscores and does not end with two underscores -/
def Private (n : Name) : Prop := (∃ r, n = '_' :: '_' :: r) ∧ ¬∃ r, n = r ++ ['_', '_']

/-- a name without its leading underscores -/
def bare : Name → Name
  | [] => []
  | c :: n => if c = '_' then bare n else c :: n

/-- `k` is the name under which a `def n` statement in the body of the class `cls` is stored: private names get an
underscore and the name of the class without its leading underscores in front, unless nothing is left of that name -/
def Mangled (cls n k : Name) : Prop :=
  (Private n ∧ bare cls ≠ [] ∧ k = '_' :: (bare cls ++ n)) ∨ (¬(Private n ∧ bare cls ≠ []) ∧ k = n)

/-- all functions of the class come from `def` statements in its body -/
def Cls.Regular (c : Cls β) : Prop := ∀ k f, (k, f) ∈ c.dict → Mangled c.name f.name k

/-- `getattr(o, name)` is the bound method `m`: the object has no attribute of its own with this name, `c` is the first
of its classes that has it, and `m` binds the function found there -/
def Looks (o : Obj β) (name : Name) (c : Cls β) (m : Method β) : Prop :=
  name ∉ o.attrs ∧ m.self = o ∧
  ∃ before after, o.mro = before ++ c :: after ∧ (∀ b ∈ before, b.dict.lookup name = none) ∧
    c.dict.lookup name = some m.func

end Pacal.Pickle
