import Verif.Spec.Basic
import Mathlib.Analysis.InnerProductSpace.PiL2

/-! # Convolutions along one axis -/

namespace Verif

variable {β : Type} [Fintype β] {m mh mb : ℕ}

/-- The sample `k` of a signal, zero beyond its end. -/
noncomputable def sampleAt (x : β → Fin m → ℂ) (t : β) (k : ℕ) : ℂ := if h : k < m then x t ⟨k, h⟩ else 0

/-- Convolution of the signals `h` and `x` along the second index. -/
noncomputable def linConv (h : β → Fin mh → ℂ) (x : β → Fin m → ℂ) (t : β) (k : ℕ) : ℂ :=
  ∑ i : Fin mh, ∑ j : Fin m, if (i : ℕ) + j = k then h t i * x t j else 0

/-- Periodic convolution with period `N`: the samples of the convolution whose positions differ by multiples of `N` are added. -/
noncomputable def perConv (N : ℕ) (h : β → Fin mh → ℂ) (x : β → Fin m → ℂ) (t : β) (k : ℕ) : ℂ :=
  ∑ i : Fin mh, ∑ j : Fin m, if ((i : ℕ) + j) % N = k then h t i * x t j else 0

/-- `σ/2 ‖h * x - b‖²` for the convolution. -/
noncomputable def linMisfit (h : β → Fin mh → ℂ) (b : β → Fin mb → ℂ) (σ : ℝ) (x : EuclideanSpace ℂ (β × Fin m)) : ℝ :=
  σ / 2 * ∑ t, ∑ k ∈ Finset.range (max mb (mh + m)), ‖linConv h (fun t j => x (t, j)) t k - sampleAt b t k‖ ^ 2

/-- `σ/2 ‖h ⊛ x - b‖²` for the periodic convolution. -/
noncomputable def perMisfit (N : ℕ) (h : β → Fin mh → ℂ) (b : β → Fin mb → ℂ) (σ : ℝ) (x : EuclideanSpace ℂ (β × Fin m)) : ℝ :=
  σ / 2 * ∑ t, ∑ k ∈ Finset.range N, ‖perConv N h (fun t j => x (t, j)) t k - sampleAt b t k‖ ^ 2

end Verif
