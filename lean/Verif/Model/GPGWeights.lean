import Verif.Model.Rounded

/-!
# The check of the weights in `GeneralizedProximalGradient` in double precision (primal.py:805-810)

`GeneralizedProximalGradient` of `Model/Primal` compares the exact sum of the weights with `1`.  The code compares the rounded sum with `1.0`.  `np.sum` adds fewer than eight numbers one after the
other (numpy's pairwise summation starts at eight); this is the case modelled here.
-/

namespace Verif

open Classical in
/-- The nearest integer, ties to the even one (IEEE `roundTiesToEven`). -/
noncomputable def roundEven (x : ℝ) : ℤ :=
  if Int.fract x < 1 / 2 then ⌊x⌋ else if 1 / 2 < Int.fract x then ⌊x⌋ + 1 else if Even ⌊x⌋ then ⌊x⌋ else ⌊x⌋ + 1

/-- Rounding to a number of 53 binary digits: numpy's default type, without underflow and overflow. -/
noncomputable def binary64 : ℝ → ℝ := fmtBits roundEven 52

/-- `np.sum` of fewer than eight numbers. -/
noncomputable def sum64 (ws : List ℝ) : ℝ := ws.foldl (fun s w => binary64 (s + w)) 0

open Classical in
/-- The weights and their check (primal.py:805-810): `np.ones(m) / m` if none are given, `ValueError` if their number is not that of the functions or their sum is not `1.0`. -/
noncomputable def gpgWeights64 (m : ℕ) (weights : Option (List ℝ)) : Py (List ℝ) :=
  let ws := match weights with
    | none => List.replicate m (binary64 (1 / m))
    | some ws => ws
  if ws.length ≠ m ∨ sum64 ws ≠ 1 then .error .valueError else .ok ws

end Verif
