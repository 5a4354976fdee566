import Verif.Model.ProxOperator
import Mathlib.Analysis.Fourier.ZMod
import Mathlib.Analysis.InnerProductSpace.PiL2

/-!
# Model of `L2Convolve` (pyproximal/proximal/L2.py:309-420)

Complex arrays.  `β` indexes the positions along the axes other than `dir` (a single one for `dims=None`), and the arrays are functions of that position and of the sample along `dir`.
`x.reshape(self.dims)` and `.ravel()` are identities in this description.  A kernel `h` with one axis is used for all positions (L2.py:377-382); it is given here already expanded.
`N` is `nfft`, assumed positive as `np.fft.fft` requires.
-/

namespace Verif

variable {β : Type} [Fintype β] {m mh mb : ℕ} (N : ℕ) [NeZero N]

/-- An array with any number of samples along the axis. -/
abbrev ConvArr (β : Type) := Σ k : ℕ, (β → Fin k → ℂ)

/-- The input of `np.fft.fft(x, N)`: zeros are appended or samples are dropped. -/
noncomputable def fftPad (x : β → Fin m → ℂ) (t : β) (k : ZMod N) : ℂ := if h : k.val < m then x t ⟨k.val, h⟩ else 0

/-- `np.fft.fft(x, N, axis)`. -/
noncomputable def npFft (x : β → Fin m → ℂ) (t : β) : ZMod N → ℂ := ZMod.dft (fftPad N x t)

variable {N}

/-- `np.fft.ifft(y, axis)`. -/
noncomputable def npIfft (y : β → ZMod N → ℂ) (t : β) : ZMod N → ℂ := ZMod.dft.symm (y t)

/-- `np.take(y, range(m), axis)`. -/
noncomputable def npTake (m : ℕ) (y : β → ZMod N → ℂ) : Py (ConvArr β) :=
  if m ≤ N then .ok ⟨m, fun t i => y t ((i : ℕ) : ZMod N)⟩ else .error .indexError

/-- `y[:m]`: all samples if there are fewer than `m`. -/
noncomputable def npHead (m : ℕ) (y : β → ZMod N → ℂ) : ConvArr β :=
  if m ≤ N then ⟨m, fun t i => y t ((i : ℕ) : ZMod N)⟩ else ⟨N, fun t i => y t ((i : ℕ) : ZMod N)⟩

variable (N)

/-- `L2Convolve.__call__` (L2.py:388-395). -/
noncomputable def convCall (h : β → Fin mh → ℂ) (b : β → Fin mb → ℂ) (σ : ℝ) (x : β → Fin m → ℂ) : Py ℝ :=
  .ok (σ / 2 * ‖(WithLp.toLp 2 fun q : β × ZMod N => npIfft (fun t k => npFft N b t k - npFft N h t k * npFft N x t k) q.1 q.2 : EuclideanSpace ℂ (β × ZMod N))‖ ^ 2)

/-- `yf` (L2.py:402, with 384-386). -/
noncomputable def convYf (h : β → Fin mh → ℂ) (b : β → Fin mb → ℂ) (σ : ℝ) (x : β → Fin m → ℂ) (τ : ℝ) (t : β) (k : ZMod N) : ℂ :=
  (npFft N x t k + ((σ * τ : ℝ) : ℂ) * ((starRingEnd ℂ) (npFft N h t k) * npFft N b t k)) / (1 + ((σ * τ : ℝ) : ℂ) * ((‖npFft N h t k‖ ^ 2 : ℝ) : ℂ))

/-- `L2Convolve.prox` (L2.py:397-408): without `dims` the result is `y[:len(x)]`.  A vanishing denominator (possible for negative `sigma` only) makes entries of the result NaN. -/
noncomputable def convProx (dimsNone : Bool) (h : β → Fin mh → ℂ) (b : β → Fin mb → ℂ) (σ : ℝ) (x : β → Fin m → ℂ) (τ : ℝ) : Py (ConvArr β) :=
  checkTau τ <|
    open Classical in
    if ∃ t k, 1 + σ * τ * ‖npFft N h t k‖ ^ 2 = 0 then .error .nanResult
    else if dimsNone then .ok (npHead m (npIfft (convYf N h b σ x τ)))
    else npTake m (npIfft (convYf N h b σ x τ))

/-- `L2Convolve.grad` (L2.py:410-420). -/
noncomputable def convGrad (h : β → Fin mh → ℂ) (b : β → Fin mb → ℂ) (σ : ℝ) (x : β → Fin m → ℂ) : Py (ConvArr β) :=
  npTake m fun t k => (σ : ℂ) * npIfft (fun t k => (starRingEnd ℂ) (npFft N h t k) * (npFft N h t k * npFft N x t k - npFft N b t k)) t k

end Verif
