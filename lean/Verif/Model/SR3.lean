import Verif.Model.Proximal
import Mathlib.Analysis.InnerProductSpace.ProdL2
import Mathlib.Data.Real.Sqrt

/-!
# Model of `pyproximal/optimization/sr3.py`

Arrays with NaN entries are not real vectors: a division by zero in `_lsqr` is followed up to the point where the returned array would
contain NaN, and reported as `nanResult`.  It is assumed that operators map arrays with NaN to arrays with NaN.
-/

open scoped RealInnerProductSpace

namespace Verif

variable {E F G : Type} [NormedAddCommGroup E] [InnerProductSpace ℝ E] [NormedAddCommGroup F] [InnerProductSpace ℝ F]
  [NormedAddCommGroup G] [InnerProductSpace ℝ G] {ι : Type} [Fintype ι]

/-- `pylops.VStack([A, c * B])` with its adjoint (sr3.py:174). -/
noncomputable def vstack2 (A : LinOp E F) (c : ℝ) (B : LinOp E G) : LinOp E (WithLp 2 (F × G)) where
  matvec :=
    { toFun := fun x => WithLp.toLp 2 (A.matvec x, c • B.matvec x)
      map_add' := fun x y => by simp only [map_add, smul_add]; rfl
      map_smul' := fun r x => by simp only [map_smul, smul_comm c r]; rfl }
  rmatvec :=
    { toFun := fun y => A.rmatvec y.fst + c • B.rmatvec y.snd
      map_add' := fun x y => by simp only [WithLp.add_fst, WithLp.add_snd, map_add, smul_add]; abel
      map_smul' := fun r x => by simp only [WithLp.smul_fst, WithLp.smul_snd, map_smul, smul_add, smul_comm c r, RingHom.id_apply] }
  dot := fun x y => by
    simp only [LinearMap.coe_mk, AddHom.coe_mk, WithLp.prod_inner_apply, inner_add_right, inner_smul_right, real_inner_smul_left, A.dot, B.dot]
    rfl

/-- `np.sign(temp) * np.maximum(abs(temp) - t, 0)` (sr3.py:87, 198). -/
noncomputable def sr3Threshold (temp : Vec ι) (t : ℝ) : Vec ι := vmk fun i => npsign (temp i) * max (|temp i| - t) 0

/-- Bidiagonalisation variables of `_lsqr` (sr3.py:61-70). -/
structure LsqrLive (E D : Type) where
  u : D
  v : E
  w : E
  α : ℝ
  φbar : ℝ
  ρbar : ℝ

/-- Loop variables of `_lsqr`; `live = none` when `v` and `w` have become NaN by a division by zero. -/
structure LsqrState (E D Z : Type) where
  x : E
  zold : Z
  live : Option (LsqrLive E D)

/-- Initialisation of `_lsqr` (sr3.py:61-70). -/
noncomputable def Lsqr.init {D : Type} [NormedAddCommGroup D] [InnerProductSpace ℝ D] (AL : LinOp E D) (data : D) (zold : Vec ι) (x0 : E) :
    LsqrState E D (Vec ι) :=
  let r := data - AL.matvec x0
  let β := ‖r‖
  let u := (1 / β) • r
  let v := AL.rmatvec u
  let α := ‖v‖
  ⟨x0, zold, if β = 0 then none else if α = 0 then none else some ⟨u, (1 / α) • v, (1 / α) • v, α, β, α⟩⟩

/-- The variables `u, v, w, alpha, phi_bar, rho_bar` after one pass (sr3.py:72-84, 90); `none` when `beta` or `alpha` is zero. -/
noncomputable def Lsqr.next {D : Type} [NormedAddCommGroup D] [InnerProductSpace ℝ D] (AL : LinOp E D) (l : LsqrLive E D) : Option (LsqrLive E D) :=
  let u := AL.matvec l.v - l.α • l.u
  let β := ‖u‖
  let v := AL.rmatvec ((1 / β) • u) - β • l.v
  let α := ‖v‖
  let ρ := Real.sqrt (l.ρbar ^ 2 + β ^ 2)
  let c := l.ρbar / ρ
  let s := β / ρ
  if β = 0 then none
  else if α = 0 then none
  else some ⟨(1 / β) • u, (1 / α) • v, (1 / α) • v - (s * α / ρ) • l.w, α, s * l.φbar, -c * α⟩

/-- Body of the loop of `_lsqr` (sr3.py:71-91): `true` is the `return` in the loop. -/
noncomputable def Lsqr.body {D : Type} [NormedAddCommGroup D] [InnerProductSpace ℝ D] (AL : LinOp E D) (Reg : LinOp E (Vec ι)) (κ eps : ℝ) (_ : ℕ)
    (st : LsqrState E D (Vec ι)) : Py (LsqrState E D (Vec ι) × Bool) :=
  match st.live with
  | none => .error .nanResult
  | some l =>
    let β := ‖AL.matvec l.v - l.α • l.u‖
    let ρ := Real.sqrt (l.ρbar ^ 2 + β ^ 2)
    let φ := l.ρbar / ρ * l.φbar
    if ρ = 0 then .error .nanResult
    else
      let x := st.x + (φ / ρ) • l.w
      let z := sr3Threshold (Reg.matvec x) (eps / κ)
      .ok (⟨x, z, Lsqr.next AL l⟩, decide (‖z - st.zold‖ < 1e-6 * ‖st.zold‖))

/-- `_lsqr` (sr3.py:12-92). -/
noncomputable def Lsqr {D : Type} [NormedAddCommGroup D] [InnerProductSpace ℝ D] (AL : LinOp E D) (data : D) (iterLim : ℕ) (zold : Vec ι) (x0 : E)
    (κ eps : ℝ) (Reg : LinOp E (Vec ι)) : Py E :=
  match forRange (Lsqr.body AL Reg κ eps) iterLim 0 (Lsqr.init AL data zold x0) with
  | .error e => .error e
  | .ok s => .ok s.x

/-- Loop variables of `SR3`; `stopped` records whether the `return` inside the loop was executed (the code returns only `x`). -/
structure SR3State (E Z : Type) where
  x : E
  v : Z
  w : Z
  θ : ℝ
  stopped : Bool

/-- The inner solve (sr3.py:177-194): `none` is `adaptive=True`, `some solve` is `scipy.sparse.linalg.lsqr` on the stacked operator, with the
right hand side and the starting point as arguments. -/
noncomputable def SR3.inner (Op : LinOp E F) (Reg : LinOp E (Vec ι)) (data : F) (κ eps : ℝ) (lim : ℕ)
    (solve : Option (WithLp 2 (F × Vec ι) → E → E)) (v : Vec ι) (x : E) : Py E :=
  let rhs : WithLp 2 (F × Vec ι) := WithLp.toLp 2 (data, Real.sqrt κ • v)
  match solve with
  | none => Lsqr (vstack2 Op (Real.sqrt κ) Reg) rhs lim v x κ eps Reg
  | some f => .ok (f rhs x)

/-- Body of the outer loop (sr3.py:175-203). -/
noncomputable def SR3.body (Op : LinOp E F) (Reg : LinOp E (Vec ι)) (data : F) (κ eps : ℝ) (lim : ℕ) (solve : Option (WithLp 2 (F × Vec ι) → E → E))
    (_ : ℕ) (s : SR3State E (Vec ι)) : Py (SR3State E (Vec ι) × Bool) :=
  match SR3.inner Op Reg data κ eps lim solve s.v s.x with
  | .error e => .error e
  | .ok x =>
    let w := sr3Threshold (Reg.matvec x) (1 / κ * eps)
    let err := ‖s.v - w‖ / max 1 ‖w‖
    if err < 1e-6 then .ok (⟨x, s.v, w, s.θ, true⟩, true)
    else
      let θ := 2 / (1 + Real.sqrt (1 + 4 / s.θ ^ 2))
      .ok (⟨x, w + (1 - θ) • (w - s.w), w, θ, false⟩, false)

/-- `SR3` (sr3.py:95-204).  `x0 = none` is `np.zeros(n)`.  A negative `kappa` gives NaN in `np.sqrt(kappa)`, `kappa = 0` raises at `1 / kappa`. -/
noncomputable def SR3 (Op : LinOp E F) (Reg : LinOp E (Vec ι)) (data : F) (κ eps : ℝ) (x0 : Option E) (solve : Option (WithLp 2 (F × Vec ι) → E → E))
    (limOuter limInner : ℕ) : Py (SR3State E (Vec ι)) :=
  if κ = 0 then .error .zeroDivisionError
  else if κ < 0 ∧ 0 < limOuter then .error .nanResult
  else forRange (SR3.body Op Reg data κ eps limInner solve) limOuter 0 ⟨x0.getD 0, 0, 0, 1, false⟩

end Verif
