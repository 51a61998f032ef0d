import Verif.Pickle.Spec

/-! # C101: methods survive the way to another process -/

namespace Pacal.Pickle
variable {β : Type}

theorem find_append {name : Name} {c : Cls β} {f : Fn β} (hc : c.dict.lookup name = some f) :
    ∀ {before after : List (Cls β)}, (∀ b ∈ before, b.dict.lookup name = none) →
      find name (before ++ c :: after) = some f
  | [], _, _ => by simp [find, hc]
  | b :: bs, _, h => by
    have h1 := h b List.mem_cons_self
    simp only [List.cons_append, find, h1]
    exact find_append hc fun b hb => h b (List.mem_cons_of_mem _ hb)

theorem isPrivate_iff {n : Name} : isPrivate n = true ↔ Private n := by
  unfold isPrivate Private
  rw [Bool.and_eq_true, Bool.not_eq_true', ← Bool.not_eq_true, List.isPrefixOf_iff_prefix,
    List.isSuffixOf_iff_suffix]
  refine and_congr ⟨?_, ?_⟩ (not_congr ⟨?_, ?_⟩)
  · rintro ⟨r, hr⟩; exact ⟨r, hr.symm⟩
  · rintro ⟨r, hr⟩; exact ⟨r, hr.symm⟩
  · rintro ⟨r, hr⟩; exact ⟨r, hr.symm⟩
  · rintro ⟨r, hr⟩; exact ⟨r, hr.symm⟩

theorem lstrip_eq : ∀ n : Name, lstrip n = bare n
  | [] => rfl
  | c :: n => by
    unfold lstrip bare
    rw [List.dropWhile_cons]
    by_cases h : c = '_'
    · rw [if_pos h, if_pos (by simp [h])]; exact lstrip_eq n
    · rw [if_neg h, if_neg (by simp [h])]

/-- **C101**: a method obtained from an object by its name is the same after pickling and unpickling, if its name is not
private or it is defined in the class of the object itself.  Missing: private methods of other classes (violated). -/
theorem C101_roundtrip_partial {o : Obj β} {name : Name} {c : Cls β} {m : Method β} (h : Looks o name c m)
    (hr : c.Regular) (hp : ¬Private m.func.name ∨ (c = o.cls ∧ bare c.name ≠ [])) :
    unpickle (pickle m) = .ok m := by
  obtain ⟨h1, h2, bs, as, h3, h4, h5⟩ := h
  have hk : Mangled c.name m.func.name name := by
    refine hr name m.func ?_
    have := List.lookup_eq_some_iff.1 h5
    obtain ⟨l1, l2, e, -⟩ := this
    rw [e]; simp
  have hn : (pickle m).1 = name := by
    have hpk : (pickle m).1 = if isPrivate m.func.name then '_' :: lstrip m.self.cls.name ++ m.func.name
      else m.func.name := rfl
    rw [hpk]
    rcases hp with hp | ⟨rfl, hp⟩
    · rw [if_neg (mt isPrivate_iff.1 hp)]
      rcases hk with ⟨h, -⟩ | ⟨-, h⟩
      · exact absurd h hp
      · exact h.symm
    · by_cases hq : Private m.func.name
      · rw [if_pos (isPrivate_iff.2 hq), h2, lstrip_eq]
        rcases hk with ⟨-, -, h⟩ | ⟨h, -⟩
        · exact h.symm
        · exact absurd ⟨hq, hp⟩ h
      · rw [if_neg (mt isPrivate_iff.1 hq)]
        rcases hk with ⟨h, -⟩ | ⟨-, h⟩
        · exact absurd h hq
        · exact h.symm
  have ho : (pickle m).2.1 = o := h2
  have hc : (pickle m).2.2 = o.cls := congrArg Obj.cls h2
  have hf : find name (o.cls :: o.bases) = some m.func := by
    show find name o.mro = _
    rw [h3]; exact find_append h5 h4
  unfold unpickle
  rw [hn, ho, hc, if_neg h1, hf]
  simp only [← h2]

/-- **C101, the functions that the classes share**: two objects with the same classes get the same function, so that what a
worker process calls does not depend on the object that travels with it -/
theorem C101_function (a : Name) (o o' : Obj β) (hm : o.mro = o'.mro) (h : a ∉ o.attrs) (h' : a ∉ o'.attrs) :
    ∀ m m', unpickle (a, o, o.cls) = .ok m → unpickle (a, o', o'.cls) = .ok m' → m.func = m'.func := by
  intro m m' e e'
  have hc : find a (o.cls :: o.bases) = find a (o'.cls :: o'.bases) := congrArg (find a) hm
  unfold unpickle at e e'
  simp only [if_neg h, if_neg h'] at e e'
  rw [hc] at e
  cases hf : find a (o'.cls :: o'.bases) with
  | none => rw [hf] at e; cases e
  | some f =>
    rw [hf] at e e'
    cases e; cases e'; rfl

/-! ### Violations -/

/-- a base class with a public method `f` and a private method `__g` -/
def base : Cls ℕ := ⟨['B'], [(['f'], ⟨['f'], 0⟩), (['_', 'B', '_', '_', 'g'], ⟨['_', '_', 'g'], 1⟩)]⟩
/-- a subclass that overrides `f` -/
def sub : Cls ℕ := ⟨['S'], [(['f'], ⟨['f'], 2⟩)]⟩
/-- an object of the subclass -/
def obj : Obj ℕ := ⟨sub, [base], []⟩

/-- both classes are written with `def` statements -/
example : base.Regular ∧ sub.Regular := by
  constructor <;> intro k f h <;> simp [base, sub] at h
  · rcases h with ⟨rfl, rfl⟩ | ⟨rfl, rfl⟩
    · exact Or.inr ⟨fun h => absurd (isPrivate_iff.2 h.1) (by decide), rfl⟩
    · exact Or.inl ⟨isPrivate_iff.1 (by decide), by decide, by decide⟩
  · obtain ⟨rfl, rfl⟩ := h
    exact Or.inr ⟨fun h => absurd (isPrivate_iff.2 h.1) (by decide), rfl⟩

/-- a method that meets the hypotheses of the theorem -/
example : Looks obj ['f'] sub ⟨obj, ⟨['f'], 2⟩⟩ :=
  ⟨by decide, rfl, [], [base], rfl, by simp, by decide⟩

/-- a class whose name begins with an underscore, with a private and a special method -/
def hidden : Cls ℕ :=
  ⟨['_', 'H'], [(['_', 'H', '_', '_', 'g'], ⟨['_', '_', 'g'], 3⟩), (['_', '_', 'c', '_', '_'], ⟨['_', '_', 'c', '_', '_'], 4⟩)]⟩

/-- its private and special methods survive: the hypotheses hold of them -/
example : hidden.Regular ∧ Looks ⟨hidden, [], []⟩ ['_', 'H', '_', '_', 'g'] hidden ⟨⟨hidden, [], []⟩, ⟨['_', '_', 'g'], 3⟩⟩ ∧
    bare hidden.name ≠ [] ∧ ¬Private ['_', '_', 'c', '_', '_'] := by
  refine ⟨?_, ⟨by decide, rfl, [], [], rfl, by simp, by decide⟩, by decide,
    fun h => absurd (isPrivate_iff.2 h) (by decide)⟩
  intro k f h
  simp [hidden] at h
  rcases h with ⟨rfl, rfl⟩ | ⟨rfl, rfl⟩
  · exact Or.inl ⟨isPrivate_iff.1 (by decide), by decide, by decide⟩
  · exact Or.inr ⟨fun h => absurd (isPrivate_iff.2 h.1) (by decide), rfl⟩

/-- **C101 violated by private methods of a base class**: the pickled name contains the name of the class of the object
instead of the class that defines the method; unpickling ends with UnboundLocalError. -/
theorem C101_violated_private : Looks obj ['_', 'B', '_', '_', 'g'] base ⟨obj, ⟨['_', '_', 'g'], 1⟩⟩ ∧
    unpickle (pickle ⟨obj, ⟨['_', '_', 'g'], 1⟩⟩) = .error .unbound :=
  ⟨⟨by decide, rfl, [sub], [], rfl, by decide, by decide⟩, by decide⟩

/-- **C101 violated by methods bound with `super()`**: the method `f` of the base class, bound to an object of a class
that overrides it, comes back as the overriding one. -/
theorem C101_violated_super : unpickle (pickle ⟨obj, ⟨['f'], 0⟩⟩) = .ok ⟨obj, ⟨['f'], 2⟩⟩ := by decide

/-- **C101 violated by attributes with the name of a method**: if the object has an attribute of its own called like the
function, unpickling the method ends with AttributeError. -/
theorem C101_violated_attribute :
    unpickle (pickle ⟨(⟨sub, [base], [['f']]⟩ : Obj ℕ), ⟨['f'], 2⟩⟩) = .error .attribute := by decide

end Pacal.Pickle
