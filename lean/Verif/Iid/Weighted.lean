import Verif.Iid.Model

/-!
Model of the second form of the i.i.d. operations, whose operation also gets the numbers of copies behind its operands
(`/repo/pacal/stats/iid_ops.py:73-109`).
-/

namespace Pacal
namespace Iid
variable {α : Type*}

/-- the loop of `_int_exp2` (stats/iid_ops.py:79-88); `i` is the counter -/
def intExp2Loop (op : ℕ → α → ℕ → α → Cfg α) (x : α) : List Bool → Option α → ℕ → Cfg (Option α)
  | [], res, _ => Cfg.pure res
  | b :: bs, res, i =>
    Cfg.bind
      (match res with
        | none => Cfg.pure (none, i)
        | some r => Cfg.bind (op i r i r) fun r' => Cfg.pure (some r', i + i)) fun st =>
    Cfg.bind
      (if b then
        match st.1 with
        | some r => Cfg.bind (op st.2 r 1 x) fun r' => Cfg.pure (some r', st.2 + 1)
        | none => Cfg.pure (some x, st.2)
      else Cfg.pure st) fun st =>
    intExp2Loop op x bs st.1 st.2

/-- `_int_exp2` (stats/iid_ops.py:73-89) -/
def intExp2 (op : ℕ → α → ℕ → α → Cfg α) (x : α) (n : ℕ) : Cfg (Option α) :=
  intExp2Loop op x (binDigits n) none 1

/-- the loop of `_int_exp_all2` (stats/iid_ops.py:96-99); `res` holds `res[1], ..., res[i-1]` -/
def intExpAll2Loop (op : ℕ → α → ℕ → α → Cfg α) : ℕ → List α → Cfg (List α)
  | 0, res => Cfg.pure res
  | k + 1, res =>
    let i := res.length + 1
    let i1 := i / 2
    let i2 := i - i / 2
    match res[i1 - 1]?, res[i2 - 1]? with
    | some a, some b => Cfg.bind (op i1 a i2 b) fun c => intExpAll2Loop op k (res ++ [c])
    | _, _ => Cfg.raise .typ

/-- `_int_exp_all2` (stats/iid_ops.py:90-100); `res[1] = x` fails for `n = 0` -/
def intExpAll2 (op : ℕ → α → ℕ → α → Cfg α) (x : α) (n : ℕ) : Cfg (List α) :=
  if n = 0 then Cfg.raise .index else intExpAll2Loop op (n - 1) [x]

/-- `iid_op2(X, n, op, all=False)` (stats/iid_ops.py:101-109) -/
def iidOp2 (op : ℕ → α → ℕ → α → Cfg α) (x : α) (n : ℕ) : Cfg (Option α) :=
  Cfg.bind Cfg.getWarn fun old =>
  Cfg.bind (Cfg.setWarn false) fun _ =>
  Cfg.bind (intExp2 op x n) fun y =>
  Cfg.bind (Cfg.setWarn old) fun _ => Cfg.pure y

/-- `iid_op2(X, n, op, all=True)` (stats/iid_ops.py:101-109) -/
def iidOp2All (op : ℕ → α → ℕ → α → Cfg α) (x : α) (n : ℕ) : Cfg (List α) :=
  Cfg.bind Cfg.getWarn fun old =>
  Cfg.bind (Cfg.setWarn false) fun _ =>
  Cfg.bind (intExpAll2 op x n) fun y =>
  Cfg.bind (Cfg.setWarn old) fun _ => Cfg.pure y

end Iid
end Pacal
