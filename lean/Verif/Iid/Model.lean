import Verif.Base.Err
import Mathlib.Data.Rat.Defs
import Mathlib.Algebra.Field.Rat
import Mathlib.Tactic.Ring

/-!
Model of `/repo/pacal/stats/iid_ops.py` and of the two combinatorial functions of
`/repo/pacal/utils.py`.

Operations on distributions may raise and may read or write the global setting
`params.general.warn_on_dependent`; both are explicit in the type `Cfg`.
-/

namespace Pacal

/-- A computation that reads and writes the global flag `params.general.warn_on_dependent` and may
raise.  The flag survives an exception. -/
def Cfg (α : Type*) := Bool → Except PyErr α × Bool

namespace Cfg
variable {α β : Type*}

def pure (a : α) : Cfg α := fun s => (.ok a, s)

def bind (m : Cfg α) (f : α → Cfg β) : Cfg β := fun s =>
  match m s with
  | (.ok a, s') => f a s'
  | (.error e, s') => (.error e, s')

def raise (e : PyErr) : Cfg α := fun s => (.error e, s)

/-- read the flag -/
def getWarn : Cfg Bool := fun s => (.ok s, s)

/-- write the flag -/
def setWarn (b : Bool) : Cfg Unit := fun _ => (.ok (), b)

end Cfg

namespace Iid
variable {α : Type*}

/-- `bin(n)[2:]`, most significant digit first (`n ≥ 0`; for negative `n` Python's string starts with
`b`, which is not modelled). -/
def binDigits (n : ℕ) : List Bool :=
  if n < 2 then [n == 1] else binDigits (n / 2) ++ [n % 2 == 1]
termination_by n

/-- the loop of `_int_exp` (stats/iid_ops.py:17-24) -/
def intExpLoop (op : α → α → Cfg α) (x : α) : List Bool → Option α → Cfg (Option α)
  | [], res => Cfg.pure res
  | b :: bs, res =>
    Cfg.bind
      (match res with
        | none => Cfg.pure none
        | some r => Cfg.bind (op r r) fun r' => Cfg.pure (some r')) fun res =>
    Cfg.bind
      (if b then
        match res with
        | some r => Cfg.bind (op r x) fun r' => Cfg.pure (some r')
        | none => Cfg.pure (some x)
      else Cfg.pure res) fun res =>
    intExpLoop op x bs res

/-- `_int_exp` (stats/iid_ops.py:14-25); the value `none` is Python's `None`. -/
def intExp (op : α → α → Cfg α) (x : α) (n : ℕ) : Cfg (Option α) :=
  intExpLoop op x (binDigits n) none

/-- the loop of `_int_exp_all` (stats/iid_ops.py:30-31); `res` holds `res[1], ..., res[i-1]` -/
def intExpAllLoop (op : α → α → Cfg α) : ℕ → List α → Cfg (List α)
  | 0, res => Cfg.pure res
  | k + 1, res =>
    let i := res.length + 1
    match res[i / 2 - 1]?, res[i - i / 2 - 1]? with
    | some a, some b => Cfg.bind (op a b) fun c => intExpAllLoop op k (res ++ [c])
    | _, _ => Cfg.raise .typ

/-- `_int_exp_all` (stats/iid_ops.py:26-32); `res[1] = x` fails for `n = 0` -/
def intExpAll (op : α → α → Cfg α) (x : α) (n : ℕ) : Cfg (List α) :=
  if n = 0 then Cfg.raise .index else intExpAllLoop op (n - 1) [x]

/-- `iid_op(X, n, op, all=False)` (stats/iid_ops.py:34-42) -/
def iidOp (op : α → α → Cfg α) (x : α) (n : ℕ) : Cfg (Option α) :=
  Cfg.bind Cfg.getWarn fun old =>
  Cfg.bind (Cfg.setWarn false) fun _ =>
  Cfg.bind (intExp op x n) fun y =>
  Cfg.bind (Cfg.setWarn old) fun _ => Cfg.pure y

/-- `iid_op(X, n, op, all=True)` (stats/iid_ops.py:34-42) -/
def iidOpAll (op : α → α → Cfg α) (x : α) (n : ℕ) : Cfg (List α) :=
  Cfg.bind Cfg.getWarn fun old =>
  Cfg.bind (Cfg.setWarn false) fun _ =>
  Cfg.bind (intExpAll op x n) fun y =>
  Cfg.bind (Cfg.setWarn old) fun _ => Cfg.pure y

/-- apply `f i` to the `i`-th element from left to right, starting with index `i` -/
def mapIdxM (f : ℕ → α → Cfg α) : ℕ → List α → Cfg (List α)
  | _, [] => Cfg.pure []
  | i, a :: l => Cfg.bind (f i a) fun b => Cfg.bind (mapIdxM f (i + 1) l) fun l' => Cfg.pure (b :: l')

/-- `iid_average(X, n)` (stats/iid_ops.py:115-122), `div a k` is `a / k` on distributions -/
def iidAverage (add : α → α → Cfg α) (div : α → ℕ → Cfg α) (x : α) (n : ℕ) : Cfg α :=
  Cfg.bind (iidOp add x n) fun
    | none => Cfg.raise .typ
    | some a => div a n

/-- `iid_average(X, n, all=True)` (stats/iid_ops.py:115-122) -/
def iidAverageAll (add : α → α → Cfg α) (div : α → ℕ → Cfg α) (x : α) (n : ℕ) : Cfg (List α) :=
  Cfg.bind (iidOpAll add x n) fun l => mapIdxM (fun i a => div a (i + 1)) 0 l

/-- `iid_average_geom(X, n)` (stats/iid_ops.py:127-131), `root a k` is `a ** (1.0/k)` -/
def iidAverageGeom (mul : α → α → Cfg α) (root : α → ℕ → Cfg α) (x : α) (n : ℕ) : Cfg α :=
  Cfg.bind (iidOp mul x n) fun
    | none => Cfg.raise .typ
    | some a => root a n

/-- `iid_average_geom(X, n, all=True)` (stats/iid_ops.py:129-130): every element gets the exponent
`1.0/n` -/
def iidAverageGeomAll (mul : α → α → Cfg α) (root : α → ℕ → Cfg α) (x : α) (n : ℕ) : Cfg (List α) :=
  Cfg.bind (iidOpAll mul x n) fun l => mapIdxM (fun _ a => root a n) 0 l

/-- the loop of `binomial_coeff` (utils.py:534-536), exact rational arithmetic instead of floats -/
def binomLoop (n : ℤ) : ℕ → ℚ → ℕ → ℚ
  | 0, c, _ => c
  | k + 1, c, i => binomLoop n k (c * (n - i) / (i + 1)) (i + 1)

/-- `binomial_coeff` (utils.py:530-537); `range(k)` is empty for negative `k`. -/
def binomialCoeff (n k : ℤ) : ℚ :=
  let k := if k > n - k then n - k else k
  binomLoop n k.toNat 1 0

/-- the inner loop of `multinomial_coeff` (utils.py:544-547) -/
def multiInner (n : ℤ) : ℕ → ℚ × ℕ → ℕ → ℚ × ℕ
  | 0, cj, _ => cj
  | k + 1, (c, j), i => multiInner n k (c * (n - j) / (i + 1), j + 1) (i + 1)

/-- `multinomial_coeff` (utils.py:539-548) for counts `ki : List ℕ` -/
def multinomialCoeff (n : ℤ) (ki : List ℕ) : Except PyErr ℚ :=
  if (ki.sum : ℤ) = n then .ok (ki.foldl (fun cj k => multiInner n k cj 0) (1, 0)).1
  else .error .assertion

/-- the value of the density built by `iid_order_stat(X, n, k)` (stats/iid_ops.py:52-60) at a point
where the density of `X` is `f` and its distribution function is `F` (`pow` of piecewise functions is
pointwise, segments.py:1712; interpolation of the result is not modelled) -/
def orderStat {K : Type*} [Field K] (n k : ℕ) (f F : K) : K :=
  (k * ((binomialCoeff n k : ℚ) : K)) * f * (F ^ (k - 1) * (1 - F) ^ (n - k))

/-- `iid_median(X, n)` (stats/iid_ops.py:70-71) -/
def median {K : Type*} [Field K] (n : ℕ) (f F : K) : K := orderStat n ((n + 1) / 2) f F

/-- the value of the density built by `iid_unknown(X, n, k)` (stats/iid_ops.py:61-67) -/
def unknown {K : Type*} [Field K] (n k : ℕ) (f F : K) : K :=
  (1 / (1 + n - k)) * ((List.range' k (n + 1 - k)).foldl (fun acc i => acc + orderStat n i f F) 0)

end Iid
end Pacal
