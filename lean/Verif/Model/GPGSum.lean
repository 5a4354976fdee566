import Verif.Model.GPGWeights

/-!
# The check of the weights in `GeneralizedProximalGradient` for any number of functions (primal.py:805-810)

`np.sum` of a contiguous array of doubles is numpy's pairwise summation: fewer than eight numbers are added one after the other, up to 128 numbers with eight running sums, longer arrays are split into
two parts.  The order of the additions depends on the number of entries only.
-/

namespace Verif

/-- The order in which the entries of an array are added. -/
inductive AddTree
  | zero
  | leaf (i : ℕ)
  | add (l r : AddTree)

/-- The sum in the given order, every addition rounded to double precision. -/
noncomputable def AddTree.eval (ws : List ℝ) : AddTree → ℝ
  | .zero => 0
  | .leaf i => ws.getD i 0
  | .add l r => binary64 (l.eval ws + r.eval ws)

/-- `t + a[lo] + a[lo+1] + ... ` (`n` numbers), one after the other. -/
def seqTree (t : AddTree) (lo : ℕ) : ℕ → AddTree
  | 0 => t
  | n + 1 => .add (seqTree t lo n) (.leaf (lo + n))

/-- The running sum `r[j]`: `a[lo+j] + a[lo+8+j] + ...` (`q + 1` numbers). -/
def strideTree (lo j : ℕ) : ℕ → AddTree
  | 0 => .leaf (lo + j)
  | q + 1 => .add (strideTree lo j q) (.leaf (lo + 8 * (q + 1) + j))

/-- numpy's pairwise summation of `a[lo], ..., a[lo+n-1]`, as used by `np.sum(weights)` (primal.py:808).  The remainder of the division by eight is added at the end. -/
def npSumTree (lo n : ℕ) : AddTree :=
  if n < 8 then seqTree .zero lo n
  else if h : n ≤ 128 then
    let r := fun j => strideTree lo j (n / 8 - 1)
    seqTree (.add (.add (.add (r 0) (r 1)) (.add (r 2) (r 3))) (.add (.add (r 4) (r 5)) (.add (r 6) (r 7)))) (lo + 8 * (n / 8)) (n % 8)
  else
    let n2 := n / 2 - n / 2 % 8
    .add (npSumTree lo n2) (npSumTree (lo + n2) (n - n2))
termination_by n
decreasing_by all_goals omega

/-- `np.sum` of an array of doubles. -/
noncomputable def npSum64 (ws : List ℝ) : ℝ := (npSumTree 0 ws.length).eval ws

open Classical in
/-- The weights and their check (primal.py:805-810) for any number of functions. -/
noncomputable def gpgWeightsNp (m : ℕ) (weights : Option (List ℝ)) : Py (List ℝ) :=
  let ws := match weights with
    | none => List.replicate m (binary64 (1 / m))
    | some ws => ws
  if ws.length ≠ m ∨ npSum64 ws ≠ 1 then .error .valueError else .ok ws

end Verif
