import Verif.Symbolic.LemOps
import Verif.Symbolic.LemSolve

/-!
# C104: arithmetic on random variables without a distribution

Operations on random variables are the operations on their values: for all values of the variables without parents, the
new variable has the value the operation gives, and it depends on the same variables without parents.

The statement for the binary operations is restricted to calls that return (`X ** 3`, `log(X)` and others raise, see the
violations), and the one for the functions of one variable to those that work.
-/

namespace Pacal.Symbolic

/-- **C104** (partial: only calls that return).  Whatever a binary operation of two numbers or random variables returns
has, for all values of the variables for which the operation is defined, the value of that operation; a returned variable
depends on exactly the variables without parents the operands depend on. -/
theorem C104_binary_partial (norm : Sym → Sym) (hn : Sound norm) (op : Op2) (i : ℕ) (a b v : Val)
    (ha : a.Proper) (hb : b.Proper) (h : op.run norm i a b = .ok v) :
    (∀ σ, a.Sat σ → b.Sat σ → v.Sat σ → op.Dom (a.value σ) (b.value σ) → v.value σ = op.fn (a.value σ) (b.value σ)) ∧
    (∀ la lb, a.Leaves la → b.Leaves lb → (∃ r, v = .num r) ∨ v.Leaves (la ++ lb)) ∧
    v.Proper :=
  let g := run_good hn ha hb h
  ⟨fun σ h1 h2 h3 h4 => g.value σ h3 h1 h2 h4, g.leaves, g.proper⟩

/-- The values in `C104_binary_partial` exist: if the identities from `i` on are fresh, values of the old variables can be
extended to the new ones. -/
theorem C104_values_exist (norm : Sym → Sym) (hf : Fresh norm) (op : Op2) (i : ℕ) (a b v : Val) (σ : ℕ → ℝ)
    (ha : a.Below i) (hb : b.Below i) (h1 : a.Sat σ) (h2 : b.Sat σ) (h : op.run norm i a b = .ok v) :
    ∃ τ, (∀ j < i, τ j = σ j) ∧ v.Sat τ ∧ a.Sat τ ∧ b.Sat τ ∧ a.value τ = a.value σ ∧ b.value τ = b.value σ := by
  obtain ⟨-, τ, h3, h4⟩ := run_solve hf ha hb h h1 h2
  have key : ∀ w : Val, w.Below i → w.Sat σ → w.Sat τ ∧ w.value τ = w.value σ := by
    intro w hw hs
    cases w with
    | num r => exact ⟨trivial, rfl⟩
    | rv n => exact ⟨sat_congr hw h3 hs, eval_congr (symname_below hw) h3⟩
  exact ⟨τ, h3, h4, (key a ha h1).1, (key b hb h2).1, (key a ha h1).2, (key b hb h2).2⟩

/-- Sums, differences, products, quotients (not by the number 0), minima and maxima of random variables are always
random variables. -/
theorem C104_always (norm : Sym → Sym) (i : ℕ) (x y : Node) (d : ℝ) :
    (∀ op : Op2, op ≠ .pow → ∃ n, op.run norm i (.rv x) (.rv y) = .ok (.rv n)) ∧
    (∀ op : Op2, op = .add ∨ op = .sub ∨ (op = .mul ∧ d ≠ 0) ∨ (op = .div ∧ d ≠ 0) →
      (∃ n, op.run norm i (.rv x) (.num d) = .ok (.rv n)) ∧ ∃ n, op.run norm i (.num d) (.rv x) = .ok (.rv n)) ∧
    (∃ n, Op2.pow.run norm i (.rv x) (.num 2) = .ok (.rv n)) ∧
    (∃ n, Op2.pow.run norm i (.rv x) (.num (-1)) = .ok (.rv n)) ∧
    (0 < d → d ≠ 1 → ∃ n, Op2.pow.run norm i (.num d) (.rv x) = .ok (.rv n)) ∧
    Op2.div.run norm i (.rv x) (.num 0) = .error .zeroDivision := by
  have sh : ∀ (j : ℕ) (z : Node) (s c : ℝ), c ≠ 0 → ∃ n, mkShift norm j z s c = .ok n := fun j z s c hc =>
    ⟨_, if_pos hc⟩
  have shm : ∀ (j : ℕ) (z : Node) (s c : ℝ), c ≠ 0 → ∃ n, (mkShift norm j z s c).map Val.rv = .ok (.rv n) := by
    intro j z s c hc
    obtain ⟨n, hn⟩ := sh j z s c hc
    exact ⟨n, by rw [hn]; rfl⟩
  refine ⟨fun op hop => ?_, fun op hop => ?_, ⟨mkSquare norm i x, ?_⟩, ⟨mkInv norm i x, ?_⟩, fun h1 h2 => ?_, if_pos rfl⟩
  · cases op <;> first | exact absurd rfl hop | exact ⟨_, rfl⟩
  · rcases hop with rfl | rfl | ⟨rfl, hd⟩ | ⟨rfl, hd⟩
    · exact ⟨shm i x d 1 one_ne_zero, shm i x d 1 one_ne_zero⟩
    · exact ⟨shm i x (-d) 1 one_ne_zero, shm i x d (-1) (by norm_num)⟩
    · obtain ⟨n, hn⟩ := shm i x 0 d hd
      exact ⟨⟨n, (if_neg hd).trans hn⟩, ⟨n, (if_neg hd).trans hn⟩⟩
    · obtain ⟨n, hn⟩ := shm i x 0 (1.0 / d) (div_ne_zero (by norm_num) hd)
      obtain ⟨m, hm⟩ := shm (i + 1) (mkInv norm i x) 0 d hd
      exact ⟨⟨n, (if_neg hd).trans hn⟩, ⟨m, (if_neg hd).trans hm⟩⟩
  · unfold Op2.run; norm_num
  · unfold Op2.run; norm_num
  · obtain ⟨n, hn⟩ := sh i x 0 (Real.log d) (Real.log_ne_zero_of_pos_of_ne_one h1 h2)
    refine ⟨mkExp norm (i + 1) n, ?_⟩
    unfold Op2.run
    simp only
    rw [if_neg h1.ne', if_neg h2, if_neg h1.le.not_gt, hn]
    rfl

/-- **C104** (partial: only calls that return; the variables behind `sqrt` and `sign` cannot be found, see the
violations).  A function of a random variable has the value of that function. -/
theorem C104_unary_partial (norm : Sym → Sym) (hn : Sound norm) (op : Op1) (i : ℕ) (x v : Node)
    (h : op.run norm i x = .ok v) :
    (∀ σ, x.Sat σ → v.Sat σ → op.Dom (x.symname.eval σ) → v.symname.eval σ = op.fn (x.symname.eval σ)) ∧
    (op ≠ .sqrt → op ≠ .sign → ∀ l, Leaves x l → Leaves v l) ∧
    (x.Proper → v.Proper) := by
  cases op with
  | neg =>
    obtain ⟨_, rfl⟩ := mkShift_ok h
    refine ⟨fun σ _ h2 _ => (one_value hn h2).trans ?_, fun _ _ l hl => .one rfl hl, proper_plain (i := i)⟩
    simp [Sym.eval, Op1.fn]
  | exp => cases h; exact ⟨fun σ _ h2 _ => one_value hn h2, fun _ _ l hl => .one rfl hl, proper_exp (i := i) hn⟩
  | log =>
    obtain ⟨_, rfl⟩ := mkLog_ok h
    exact ⟨fun σ _ h2 _ => one_value hn h2, fun _ _ l hl => .one rfl hl, proper_plain (i := i)⟩
  | atan => cases h; exact ⟨fun σ _ h2 _ => one_value hn h2, fun _ _ l hl => .one rfl hl, proper_plain (i := i)⟩
  | tanh => cases h; exact ⟨fun σ _ h2 _ => one_value hn h2, fun _ _ l hl => .one rfl hl, proper_plain (i := i)⟩
  | sqrt =>
    cases h
    refine ⟨fun σ _ h2 _ => (h2.1.trans (hn _ σ)).trans ?_, fun h => absurd rfl h, fun h => h⟩
    simp only [Sym.eval, Op1.fn]
    exact (Real.sqrt_eq_rpow _).symm
  | sign =>
    cases h
    exact ⟨fun σ _ h2 _ => h2.1.trans (hn _ σ), fun _ h => absurd rfl h, fun h => h⟩
  | abs | sin | cos | tan | sigmoid => cases h

/-- Which functions of random variables return: all of `-X`, `exp`, `sqrt`, `sign`, `atan`, `tanh`, and the logarithm of
what `exp` returned. -/
theorem C104_unary_returns (norm : Sym → Sym) (i j : ℕ) (x : Node) :
    (∀ op : Op1, op = .neg ∨ op = .exp ∨ op = .sqrt ∨ op = .sign ∨ op = .atan ∨ op = .tanh →
      ∃ v, op.run norm i x = .ok v) ∧
    (∀ y, Op1.exp.run norm i x = .ok y → ∃ v, Op1.log.run norm j y = .ok v) := by
  refine ⟨fun op hop => ?_, fun y hy => ?_⟩
  · rcases hop with rfl | rfl | rfl | rfl | rfl | rfl
    · exact ⟨_, if_pos (by norm_num)⟩
    all_goals exact ⟨_, rfl⟩
  · cases hy; exact ⟨_, rfl⟩

/-- The functions of one number are the usual ones; outside their domain (`log` at 0 and below, `sqrt` below 0)
the result is not a finite number. -/
theorem C104_numbers (op : Op1) (h : op ≠ .sigmoid) (x : ℝ) :
    (op.Dom x → op.onNumber x = .ok (some (op.fn x))) ∧ (¬ op.Dom x → op.onNumber x = .ok none) := by
  cases op with
  | log => exact ⟨fun hd => congrArg Except.ok (if_pos hd), fun hd => congrArg Except.ok (if_neg hd)⟩
  | sqrt => exact ⟨fun hd => congrArg Except.ok (if_pos hd), fun hd => congrArg Except.ok (if_neg hd)⟩
  | sigmoid => exact absurd rfl h
  | neg | abs | exp | sign | atan | tanh | sin | cos | tan => exact ⟨fun _ => rfl, fun hd => absurd trivial hd⟩

/-- Disagreement: `abs(X)` of a random variable without distribution fails for every variable, because the constructor calls
the misspelt method `getSymame` (rv.py:413). -/
theorem C104_violated_abs (norm : Sym → Sym) (i : ℕ) (x : Node) : Op1.abs.run norm i x = .error .attribute := rfl

/-- Disagreement: `log(X)`, `X ** 3`, `X ** 0.5` and `X ** Y` of a random variable without distribution fail with
`AttributeError` unless `X` was made by `exp`, because `LogRV` calls `is_nonneg`, which no other class of rv.py has
(rv.py:365-372). -/
theorem C104_violated_log (norm : Sym → Sym) (i j : ℕ) (y : Node) :
    Op1.log.run norm i (.leaf j) = .error .attribute ∧
    Op2.pow.run norm i (.rv (.leaf j)) (.num 3) = .error .attribute ∧
    Op2.pow.run norm i (.rv (.leaf j)) (.num (1 / 2)) = .error .attribute ∧
    Op2.pow.run norm i (.rv (.leaf j)) (.rv y) = .error .attribute := by
  refine ⟨rfl, ?_, ?_, rfl⟩ <;>
  · unfold Op2.run
    norm_num [mkLog, Node.isNonneg, Bind.bind, Except.bind]

/-- Disagreement: the parents of `sqrt(X)` are a list that contains a list, and those of `sign(X)` are not a list, so asking
for the variables behind them fails (rv.py:402, 423). -/
theorem C104_violated_parents (norm : Sym → Sym) (i : ℕ) (x : Node) :
    (∀ v, Op1.sqrt.run norm i x = .ok v → v.parents = .error .attribute ∧ ∀ l, ¬ Leaves v l) ∧
    (∀ v, Op1.sign.run norm i x = .ok v → v.parents = .error .typ ∧ ∀ l, ¬ Leaves v l) := by
  refine ⟨fun v h => ?_, fun v h => ?_⟩ <;>
  · cases h
    refine ⟨rfl, fun l hl => ?_⟩
    cases hl with
    | stop h => cases h
    | one h _ => cases h
    | two h _ _ => cases h

/-- Disagreement: `sin`, `cos` and `tan` do not accept random variables without distribution; `sigmoid` accepts neither them
nor numbers, because it uses a name that is not defined (distr.py:792-797). -/
theorem C104_violated_functions (norm : Sym → Sym) (i : ℕ) (x : Node) (r : ℝ) :
    Op1.sin.run norm i x = .error .typ ∧ Op1.cos.run norm i x = .error .typ ∧ Op1.tan.run norm i x = .error .typ ∧
    Op1.sigmoid.run norm i x = .error .name ∧ Op1.sigmoid.onNumber r = .error .name := ⟨rfl, rfl, rfl, rfl, rfl⟩

/-- Disagreement: `min` and `max` of a random variable without distribution and a number fail, although they work for
variables with a distribution (rv.py:548-549, distr.py:1196-1199). -/
theorem C104_violated_minMax (norm : Sym → Sym) (i : ℕ) (x : Node) (r : ℝ) :
    Op2.min.run norm i (.rv x) (.num r) = .error .typ ∧ Op2.max.run norm i (.rv x) (.num r) = .error .typ ∧
    Op2.min.run norm i (.num r) (.rv x) = .error .typ ∧ Op2.max.run norm i (.num r) (.rv x) = .error .typ :=
  ⟨rfl, rfl, rfl, rfl⟩

/-- Disagreement: `0 ** X` is the number 0 and `X * 0`, `0 / X` are, whatever `X` is; in particular `0 ** X` is 0 where `X`
is 0 although `0 ** 0` is 1 (rv.py:283-284). -/
theorem C104_violated_zeroPow (norm : Sym → Sym) (i : ℕ) (x : Node) :
    ∃ v, Op2.pow.run norm i (.num 0) (.rv x) = .ok v ∧
      ∀ σ, x.symname.eval σ = 0 → v.value σ ≠ (0 : ℝ) ^ (x.symname.eval σ) :=
  ⟨.num 0, if_pos rfl, fun σ h => by rw [h]; simp [Val.value]⟩

/-- simplifications that change nothing satisfy the assumptions -/
example : Sound id ∧ Fresh id := ⟨fun _ _ => rfl, fun _ _ h => h⟩

/-- `(X₀ + X₁) * X₀`: the operands are as assumed, the call returns, and the value is the one expected for `X₀ = 2, X₁ = 3` -/
example : ∃ s v : Node, Op2.add.run id 2 (.rv (.leaf 0)) (.rv (.leaf 1)) = .ok (.rv s) ∧
    Op2.mul.run id 3 (.rv s) (.rv (.leaf 0)) = .ok (.rv v) ∧ (Val.rv s).Proper ∧ s.Below 3 ∧ Leaves v [0, 1, 0] ∧
    ∃ σ : ℕ → ℝ, σ 0 = 2 ∧ σ 1 = 3 ∧ v.Sat σ ∧ v.symname.eval σ = 10 := by
  refine ⟨_, _, rfl, rfl, ⟨trivial, trivial⟩, ?_, ?_, fun n => if n = 0 then 2 else if n = 1 then 3 else if n = 2 then 5 else 10,
    rfl, rfl, ?_, ?_⟩
  · simp [mkTwo, Node.Below, Sym.Below, Node.symname, Node.sym, Sym.isAtom]
  · exact .two (l := [0, 1]) (m := [0]) rfl (.two (l := [0]) (m := [1]) rfl (.stop rfl) (.stop rfl)) (.stop rfl)
  · norm_num [mkTwo, Node.Sat, Node.Eqn, Node.symname, Node.sym, Sym.isAtom, Sym.eval, Node.id]
  · norm_num [mkTwo, Node.symname, Node.sym, Sym.isAtom, Sym.eval, Node.id]

/-- `exp(X₀) ** 3` returns -/
example : ∃ v, Op2.pow.run id 2 (.rv (mkExp id 1 (.leaf 0))) (.num 3) = .ok (.rv v) ∧ (mkExp id 1 (.leaf 0)).Proper := by
  refine ⟨mkExp id 4 (.one 3 false (.add (.mul (.sym 2) (.num 3)) (.num 0)) (.one 2 false (.log (.sym 1)) (mkExp id 1 (.leaf 0)))),
    ?_, fun _ σ => Real.exp_pos _, trivial⟩
  unfold Op2.run
  norm_num [mkLog, mkExp, mkShift, Node.isNonneg, Bind.bind, Except.bind, Node.symname, Node.sym, Sym.isAtom, Node.id]

end Pacal.Symbolic
