import Verif.Model.NonConvex
import Verif.Model.Nuclear
import Mathlib.Data.Fin.Tuple.Sort
import Mathlib.Data.List.Sort

/-!
# Model of `QuadraticEnvelopeCardIndicator` and `QuadraticEnvelopeRankL2` (pyproximal/proximal/QuadraticEnvelope.py:98-331)

Real arrays of any length `n`.  `np.argsort` is a parameter (a permutation of the positions; the theorems assume that it sorts, with any tie-breaking).
-/

open scoped RealInnerProductSpace

namespace Verif

variable {n : ℕ}

/-- `np.sort(a)[::-1]`. -/
noncomputable def sortDesc (a : Fin n → ℝ) : Fin n → ℝ := fun k => a (Tuple.sort (fun i => - a i) k)

open Classical in
/-- `np.min(np.where(p)[0])`; `ValueError` if the condition holds nowhere. -/
noncomputable def minWhere (p : Fin n → Prop) : Py (Fin n) :=
  if h : (Finset.univ.filter p).Nonempty then .ok ((Finset.univ.filter p).min' h) else .error .valueError

open Classical in
/-- `np.max(np.where(p)[0])`. -/
noncomputable def maxWhere (p : Fin n → Prop) : Py (Fin n) :=
  if h : (Finset.univ.filter p).Nonempty then .ok ((Finset.univ.filter p).max' h) else .error .valueError

/-- `sums[j]` (QuadraticEnvelope.py:173-175): entry `j` of the last `r0` partial sums of the increasingly sorted magnitudes, divided by `j + 1`;
`xs` is sorted decreasingly, so that the sum runs over the positions from `r0 - 1 - j` on. -/
noncomputable def cardSums (r0 : ℕ) (xs : Fin n → ℝ) (j : ℕ) : ℝ := (∑ k ∈ Finset.univ.filter (fun k : Fin n => r0 - 1 - j ≤ k.val), xs k) / ((j : ℝ) + 1)

open Classical in
/-- `k_star` (QuadraticEnvelope.py:176-179): the first `j` with `sums[j + 1] > sums[j]`, and `r0 - 1` if there is none. -/
noncomputable def cardKStar (r0 : ℕ) (xs : Fin n → ℝ) : ℕ :=
  if h : ∃ j, j + 1 < r0 ∧ 0 < cardSums r0 xs (j + 1) - cardSums r0 xs j then Nat.find h else r0 - 1

open Classical in
/-- `QuadraticEnvelopeCardIndicator.__call__` (QuadraticEnvelope.py:170-186).  For `r0 = 0` the division of line 175 has incompatible shapes
(or leaves an empty array), for `r0 = 1` the array `tmp` is empty: `np.argmax` of it is a `ValueError`. -/
noncomputable def cardEnvCall (r0 : ℕ) (x : Vec (Fin n)) : Py ℝ :=
  if n ≤ r0 ∨ (Finset.univ.filter fun i => x i ≠ 0).card ≤ r0 then .ok 0
  else if r0 ≤ 1 then .error .valueError
  else
    let xs := sortDesc fun i => |x i|
    let k := cardKStar r0 xs
    .ok (0.5 * (((k : ℝ) + 1) * cardSums r0 xs k ^ 2 - ∑ i ∈ Finset.univ.filter (fun i : Fin n => r0 - k - 1 ≤ i.val), xs i ^ 2))

open Classical in
/-- The loop of `QuadraticEnvelopeCardIndicator.prox` (QuadraticEnvelope.py:211-230); `none` if no candidate is accepted.  A zero denominator
gives `nan` or `inf` in numpy, which fails the test. -/
noncomputable def cardLoop (ρ : ℝ) (r0 : ℕ) (rsort rnew : Fin n → ℝ) : ℝ → List ℝ → Py (Option ℝ)
  | _, [] => .ok none
  | z1, z2 :: zs => do
    let s := (z1 + z2) / 2
    let i1 ← minWhere fun k => rnew k ≤ s
    let i2 ← maxWhere fun k => s ≤ rnew k
    let num := ρ * ∑ k ∈ Finset.univ.filter (fun k : Fin n => i1 ≤ k ∧ k ≤ i2), rsort k
    let den := ((r0 : ℝ) - (i1 : ℕ)) * ρ + ((i2 : ℕ) + 1 - r0) * 1
    if den ≠ 0 ∧ z2 ≤ num / den ∧ num / den ≤ z1 then .ok (some (num / den)) else cardLoop ρ r0 rsort rnew z2 zs

open Classical in
/-- `z` (QuadraticEnvelope.py:211): `np.sort(rnew[istart : iend + 1])[::-1]`. -/
noncomputable def cardSlice (rnew : Fin n → ℝ) (istart iend : Fin n) : List ℝ :=
  (((List.finRange n).filter fun k => istart ≤ k ∧ k ≤ iend).map rnew).insertionSort fun a b => b ≤ a

/-- `rnew` (QuadraticEnvelope.py:202). -/
noncomputable def cardNew (ρ : ℝ) (r0 : ℕ) (rsort : Fin n → ℝ) (k : Fin n) : ℝ := if (k : ℕ) < r0 then rsort k else ρ * rsort k

/-- `np.concatenate((np.maximum(rnew[:r0], sI), np.minimum(rnew[r0:], sI)))` (QuadraticEnvelope.py:221-226). -/
noncomputable def cardClip (r0 : ℕ) (rnew : Fin n → ℝ) (sI : ℝ) (k : Fin n) : ℝ :=
  if (k : ℕ) < r0 then max (rnew k) sI else min (rnew k) sI

/-- `x = x[idinv]; x = x * theta; return (rho * y - x) / (rho - 1)` (QuadraticEnvelope.py:206-207, 232). -/
noncomputable def cardOut (ρ : ℝ) (y : Vec (Fin n)) (id : Equiv.Perm (Fin n)) (x : Fin n → ℝ) : Vec (Fin n) :=
  vmk fun i => (ρ * y i - x (id.symm i) * npsign (y i)) / (ρ - 1)

/-- The end of `QuadraticEnvelopeCardIndicator.prox` (QuadraticEnvelope.py:212-232): the loop over `z`; a loop without accepted candidate leaves
`x` unassigned. -/
noncomputable def cardSearch (ρ : ℝ) (r0 : ℕ) (y : Vec (Fin n)) (id : Equiv.Perm (Fin n)) (rsort rnew : Fin n → ℝ) : List ℝ → Py (Vec (Fin n))
  | [] => .error .indexError
  | z1 :: zs => do
    match ← cardLoop ρ r0 rsort rnew z1 zs with
    | none => .error .unboundLocalError
    | some sI => .ok (cardOut ρ y id (cardClip r0 rnew sI))

open Classical in
/-- `QuadraticEnvelopeCardIndicator.prox` after the check of `tau` (QuadraticEnvelope.py:190-232).  `rsort[self.r0 - 1]` is the last entry for `r0 = 0`.
`_hardthreshold` (line 2) is the function of `pylops`, not the one of `L0.py`; it sets to zero the entries of magnitude at most `θ tau`, where `θ` is a
parameter here. -/
noncomputable def cardEnvProx (argsort : (Fin n → ℝ) → Equiv.Perm (Fin n)) (θ : ℝ → ℝ) (r0 : ℕ) (y : Vec (Fin n)) (τ : ℝ) : Py (Vec (Fin n)) :=
  let ρ := 1 / τ
  if ρ ≤ 1 then .ok (hardthreshold y (θ τ))
  else if h : n ≤ r0 then .ok y
  else
    let id := argsort fun i => - |y i|
    let rsort := fun k => |y (id k)|
    let rnew := cardNew ρ r0 rsort
    let cur : Fin n := ⟨r0, by omega⟩
    let prev : Fin n := ⟨if r0 = 0 then n - 1 else r0 - 1, by split <;> omega⟩
    if ρ * rsort cur < rsort prev then .ok (cardOut ρ y id rnew)
    else do
      let istart ← minWhere fun k => rnew k ≤ rnew cur
      let iend ← maxWhere fun k => rnew prev ≤ rnew k
      cardSearch ρ r0 y id rsort rnew (cardSlice rnew istart iend)

/-- `QuadraticEnvelopeCardIndicator` (QuadraticEnvelope.py:98-232). -/
noncomputable def QuadraticEnvelopeCardIndicator (argsort : (Fin n → ℝ) → Equiv.Perm (Fin n)) (θ : ℝ → ℝ) (r0 : ℕ) : ProxOp (Vec (Fin n)) where
  call := fun x => do
    let v ← cardEnvCall r0 x
    pure (.num v)
  prox? := some fun y τ => checkTau τ (cardEnvProx argsort θ r0 y τ)
  proxdual? := none
  grad? := none
  hasgrad := false
  sigmame := 1

open Classical in
/-- The loop of `QuadraticEnvelopeRankL2.prox` (QuadraticEnvelope.py:311-327) over the remaining positions; `none` if it ends without `break`.
In the chained comparison `p[k + 1]` is read only if `p[k] <= s`. -/
noncomputable def rankLoop (ρ : ℝ) (r0 : ℕ) (yk p : Fin n → ℝ) (ind : Equiv.Perm (Fin n)) : List (Fin n) → ℝ → ℝ → Py (Option ℝ)
  | [], _, _ => .ok none
  | k :: ks, a, b =>
    let ii := ind k
    let a' := if (ii : ℕ) < r0 then a + (ρ + 1) / ρ else a - 1 / ρ
    let b' := if (ii : ℕ) < r0 then b + (ρ + 1) / ρ * yk ii else b - (ρ + 1) / ρ * yk ii
    if a' = 0 then rankLoop ρ r0 yk p ind ks a' b'
    else
      let s := b' / a'
      if p k ≤ s then
        if h : (k : ℕ) + 1 < n then
          if s ≤ p ⟨k + 1, h⟩ then .ok (some s) else rankLoop ρ r0 yk p ind ks a' b'
        else .error .indexError
      else rankLoop ρ r0 yk p ind ks a' b'

/-- `zk` after the loop of `QuadraticEnvelopeRankL2.prox` (QuadraticEnvelope.py:308-309, 325-326). -/
noncomputable def rankZ (ρ : ℝ) (r0 : ℕ) (yk : Fin n → ℝ) : Option ℝ → Fin n → ℝ
  | none => fun k => if (k : ℕ) < r0 then yk k else (1 + ρ) * yk k
  | some s => fun k => if (k : ℕ) < r0 then max s (yk k) else min s ((1 + ρ) * yk k)

variable {ι : Type} [Fintype ι] {c : ℕ}

/-- `QuadraticEnvelopeRankL2.prox` after the check of `tau` (QuadraticEnvelope.py:294-331); `n` is the number of singular values. -/
noncomputable def rankEnvProx (svd : Vec (ι × Fin c) → SVD ι (Fin c) (Fin n)) (argsort : (Fin n → ℝ) → Equiv.Perm (Fin n)) (r0 : ℕ)
    (M x : Vec (ι × Fin c)) (τ : ℝ) : Py (Vec (ι × Fin c)) := do
  let ρ := 1 / τ
  let Y := (1 / (1 + ρ)) • (M + ρ • x)
  let d := svd Y
  let r := fun k : Fin n => if (k : ℕ) < r0 then d.s k else (1 + ρ) * d.s k
  let ind := argsort r
  let a := ((n : ℝ) - r0) / ρ
  let b := (ρ + 1) / ρ * ∑ k ∈ Finset.univ.filter (fun k : Fin n => r0 ≤ k.val), d.s k
  let found ← rankLoop ρ r0 d.s (fun k => r (ind k)) ind (List.finRange n) a b
  let Z := recon d.u (rankZ ρ r0 d.s found) d.v
  pure (x + (1 / ρ) • (M - Z))

/-- `QuadraticEnvelopeRankL2` (QuadraticEnvelope.py:235-331); `eig X` is `np.linalg.eigvalsh(X.T @ X)`.  `__call__` (283-290) adds half the Frobenius
norm, not its square. -/
noncomputable def QuadraticEnvelopeRankL2 (svd : Vec (ι × Fin c) → SVD ι (Fin c) (Fin n)) (eig : Vec (ι × Fin c) → Fin c → ℝ)
    (argsort : (Fin n → ℝ) → Equiv.Perm (Fin n)) (r0 : ℕ) (M : Vec (ι × Fin c)) : ProxOp (Vec (ι × Fin c)) where
  call := fun x => do
    let v ← cardEnvCall r0 (vmk fun k => √(if eig x k < 0 then 0 else eig x k))
    pure (.num (v + 0.5 * ‖x - M‖))
  prox? := some fun x τ => checkTau τ (rankEnvProx svd argsort r0 M x τ)
  proxdual? := none
  grad? := none
  hasgrad := false
  sigmame := 1

end Verif
