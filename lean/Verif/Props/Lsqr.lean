import Verif.Model.SR3
import Verif.Spec.Lsqr
import Verif.Lemmas.Loop
import Mathlib.LinearAlgebra.Dimension.Constructions
import Mathlib.Analysis.InnerProductSpace.PiL2

/-! # C122: the adaptive inner solver of SR3 -/

open scoped RealInnerProductSpace

namespace Verif

variable {E F : Type} [NormedAddCommGroup E] [InnerProductSpace ℝ E] [NormedAddCommGroup F] [InnerProductSpace ℝ F] {D : Type} [NormedAddCommGroup D]
  [InnerProductSpace ℝ D] {ι : Type} [Fintype ι]

/-- The iterate after one pass of the loop of `_lsqr` that starts with `x` and the bidiagonalisation `l`. -/
noncomputable def lsqrX (A : LinOp E D) (l : LsqrLive E D) (x : E) : E :=
  let ρ := Real.sqrt (l.ρbar ^ 2 + ‖A.matvec l.v - l.α • l.u‖ ^ 2)
  x + (l.ρbar / ρ * l.φbar / ρ) • l.w

/-- What holds at the head of the loop of `_lsqr`: the residual is `φbar` times a unit vector `q`. -/
structure LsqrInv (A : LinOp E D) (b : D) (x : E) (l : LsqrLive E D) (q : D) : Prop where
  hu : ‖l.u‖ = 1
  hv : ‖l.v‖ = 1
  hq : ‖q‖ = 1
  hα : 0 < l.α
  hφ : 0 < l.φbar
  hρ : l.ρbar ≠ 0
  res : b - A.matvec x = l.φbar • q
  adj : A.rmatvec q = l.ρbar • l.v
  img : A.matvec l.w = l.ρbar • q + (A.matvec l.v - l.α • l.u)
  ort : l.ρbar = l.α * ⟪q, l.u⟫

lemma lsqr_init (A : LinOp E D) (b : D) (zold : Vec ι) (x0 : E) :
    ((Lsqr.init A b zold x0).live = none ∧ A.rmatvec (b - A.matvec x0) = 0) ∨
      ∃ l q, (Lsqr.init A b zold x0).live = some l ∧ LsqrInv A b x0 l q ∧ A.rmatvec l.u = l.α • l.v := by
  by_cases hβ : ‖b - A.matvec x0‖ = 0
  · left
    refine ⟨by simp only [Lsqr.init, hβ, if_true], by rw [norm_eq_zero.1 hβ, map_zero]⟩
  · have hβ0 : 0 < ‖b - A.matvec x0‖ := lt_of_le_of_ne (norm_nonneg _) (Ne.symm hβ)
    by_cases hα : ‖A.rmatvec ((1 / ‖b - A.matvec x0‖) • (b - A.matvec x0))‖ = 0
    · left
      refine ⟨by simp only [Lsqr.init, hα, if_true, ite_self], ?_⟩
      rw [norm_eq_zero, map_smul] at hα
      exact (smul_eq_zero.1 hα).resolve_left (by positivity)
    · right
      have hα0 : 0 < ‖A.rmatvec ((1 / ‖b - A.matvec x0‖) • (b - A.matvec x0))‖ := lt_of_le_of_ne (norm_nonneg _) (Ne.symm hα)
      refine ⟨_, (1 / ‖b - A.matvec x0‖) • (b - A.matvec x0), by simp only [Lsqr.init, hβ, hα, if_false]; rfl, ?_, ?_⟩
      · have h1 : ‖(1 / ‖b - A.matvec x0‖) • (b - A.matvec x0)‖ = 1 := by
          rw [norm_smul, Real.norm_of_nonneg (by positivity), one_div, inv_mul_cancel₀ hβ]
        refine ⟨h1, ?_, h1, hα0, hβ0, hα, ?_, ?_, ?_, ?_⟩
        · dsimp only
          rw [norm_smul, Real.norm_of_nonneg (by positivity), one_div, inv_mul_cancel₀ hα]
        · dsimp only
          rw [smul_smul, mul_one_div, div_self hβ, one_smul]
        · dsimp only
          rw [smul_smul, mul_one_div, div_self hα, one_smul]
        · dsimp only
          abel
        · dsimp only
          rw [real_inner_self_eq_norm_sq, h1, one_pow, mul_one]
      · dsimp only
        rw [smul_smul, mul_one_div, div_self hα, one_smul]

/-- One pass: the residual shrinks strictly, and a breakdown means that the normal equations hold. -/
lemma lsqr_next {A : LinOp E D} {b : D} {x : E} {l : LsqrLive E D} {q : D} (h : LsqrInv A b x l q) :
    0 < Real.sqrt (l.ρbar ^ 2 + ‖A.matvec l.v - l.α • l.u‖ ^ 2) ∧ ‖b - A.matvec (lsqrX A l x)‖ < ‖b - A.matvec x‖ ∧
      (Lsqr.next A l = none → A.rmatvec (b - A.matvec (lsqrX A l x)) = 0) ∧
      ∀ l', Lsqr.next A l = some l' → (∃ q', LsqrInv A b (lsqrX A l x) l' q') ∧
        ‖A.matvec l.v - l.α • l.u‖ • l'.u = A.matvec l.v - l.α • l.u ∧ ‖A.matvec l.v - l.α • l.u‖ ≠ 0 ∧
        l'.α • l'.v = A.rmatvec l'.u - ‖A.matvec l.v - l.α • l.u‖ • l.v := by
  obtain ⟨hu, hv, hq, hα, hφ, hρ, res, adj, img, ort⟩ := h
  obtain ⟨u, v, w, α, φ, ρb⟩ := l
  dsimp only at hu hv hq hα hφ hρ res adj img ort
  simp only [lsqrX, Lsqr.next]
  set p := A.matvec v - α • u with hp
  have hρ2 : 0 < ρb ^ 2 + ‖p‖ ^ 2 := by positivity
  set ρ := Real.sqrt (ρb ^ 2 + ‖p‖ ^ 2) with hρdef
  have hρ0 : 0 < ρ := Real.sqrt_pos.2 hρ2
  have hρsq : ρ ^ 2 = ρb ^ 2 + ‖p‖ ^ 2 := Real.sq_sqrt hρ2.le
  -- the new residual
  have hqp : ⟪q, p⟫ = 0 := by
    rw [hp, inner_sub_right, inner_smul_right]
    have : ⟪q, A.matvec v⟫ = ρb := by
      rw [real_inner_comm, A.dot, adj, inner_smul_right, real_inner_self_eq_norm_sq, hv]; ring
    rw [this, ← ort, sub_self]
  have hr : b - A.matvec (x + (ρb / ρ * φ / ρ) • w) = (φ / ρ ^ 2) • (‖p‖ ^ 2 • q - ρb • p) := by
    rw [map_add, map_smul, ← sub_sub, res, img]
    have e : φ • q - (ρb / ρ * φ / ρ) • (ρb • q + p) - (φ / ρ ^ 2) • (‖p‖ ^ 2 • q - ρb • p) =
        (φ - ρb / ρ * φ / ρ * ρb - φ / ρ ^ 2 * ‖p‖ ^ 2) • q + (-(ρb / ρ * φ / ρ) + φ / ρ ^ 2 * ρb) • p := by module
    have e1 : φ - ρb / ρ * φ / ρ * ρb - φ / ρ ^ 2 * ‖p‖ ^ 2 = 0 := by
      have : ρ ≠ 0 := hρ0.ne'
      field_simp
      rw [hρsq]; ring
    have e2 : -(ρb / ρ * φ / ρ) + φ / ρ ^ 2 * ρb = 0 := by
      field_simp; ring
    rw [e1, e2, zero_smul, zero_smul, add_zero] at e
    exact sub_eq_zero.1 e
  have hnq : ‖‖p‖ ^ 2 • q - ρb • p‖ = ‖p‖ * ρ := by
    rw [← sq_eq_sq₀ (norm_nonneg _) (by positivity), norm_sub_sq_real, norm_smul, norm_smul, real_inner_smul_left, inner_smul_right, hqp, hq, mul_pow, mul_pow,
      mul_pow, hρsq, norm_pow, norm_norm, Real.norm_eq_abs, sq_abs]
    ring
  have hnr : ‖b - A.matvec (x + (ρb / ρ * φ / ρ) • w)‖ = ‖p‖ / ρ * φ := by
    rw [hr, norm_smul, hnq, Real.norm_of_nonneg (by positivity)]
    field_simp
  have hadj : A.rmatvec (b - A.matvec (x + (ρb / ρ * φ / ρ) • w)) = (φ / ρ ^ 2 * ρb) • (‖p‖ ^ 2 • v - A.rmatvec p) := by
    rw [hr, map_smul, map_sub, map_smul, map_smul, adj, mul_smul, smul_sub ρb, smul_comm ρb]
  refine ⟨hρ0, ?_, ?_, ?_⟩
  · rw [hnr, res, norm_smul, hq, mul_one, Real.norm_of_nonneg hφ.le]
    have : ‖p‖ / ρ < 1 := by
      rw [div_lt_one hρ0, ← abs_of_nonneg (norm_nonneg p), ← abs_of_pos hρ0, ← sq_lt_sq, hρsq]
      have : 0 < ρb ^ 2 := by positivity
      linarith
    nlinarith
  · intro hn
    by_cases h1 : ‖p‖ = 0
    · have : p = 0 := norm_eq_zero.1 h1
      rw [hr, h1, this]; simp
    · by_cases h2 : ‖A.rmatvec ((1 / ‖p‖) • p) - ‖p‖ • v‖ = 0
      · rw [norm_eq_zero, map_smul, sub_eq_zero] at h2
        have : A.rmatvec p = ‖p‖ ^ 2 • v := by
          rw [pow_two, mul_smul, ← h2, smul_smul, mul_one_div, div_self h1, one_smul]
        rw [hadj, this, sub_self, smul_zero]
      · rw [if_neg h1, if_neg h2] at hn
        exact absurd hn (by simp)
  · intro l' hl'
    by_cases h1 : ‖p‖ = 0
    · rw [if_pos h1] at hl'
      exact absurd hl' (by simp)
    by_cases h2 : ‖A.rmatvec ((1 / ‖p‖) • p) - ‖p‖ • v‖ = 0
    · rw [if_pos h2, ite_self] at hl'
      exact absurd hl' (by simp)
    rw [if_neg h1, if_neg h2, Option.some.injEq] at hl'
    subst hl'
    have h1p : 0 < ‖p‖ := lt_of_le_of_ne (norm_nonneg _) (Ne.symm h1)
    set t := A.rmatvec ((1 / ‖p‖) • p) - ‖p‖ • v with ht
    have h2p : 0 < ‖t‖ := lt_of_le_of_ne (norm_nonneg _) (Ne.symm h2)
    have hunit : ‖(1 / ‖p‖) • p‖ = 1 := by rw [norm_smul, Real.norm_of_nonneg (by positivity), one_div, inv_mul_cancel₀ h1]
    have hAp : A.rmatvec p = ‖p‖ • (t + ‖p‖ • v) := by
      rw [ht, sub_add_cancel, map_smul, smul_smul, mul_one_div, div_self h1, one_smul]
    refine ⟨⟨(1 / (‖p‖ * ρ)) • (‖p‖ ^ 2 • q - ρb • p), hunit, ?_, ?_, h2p, by positivity, ?_, ?_, ?_, ?_, ?_⟩, ?_, h1, ?_⟩
    · dsimp only
      rw [norm_smul, Real.norm_of_nonneg (by positivity), one_div, inv_mul_cancel₀ h2]
    · rw [norm_smul, hnq, Real.norm_of_nonneg (by positivity), one_div, inv_mul_cancel₀ (by positivity)]
    · dsimp only
      have : ρb / ρ ≠ 0 := div_ne_zero hρ hρ0.ne'
      exact mul_ne_zero (neg_ne_zero.2 this) h2
    · dsimp only
      rw [hr, smul_smul]
      congr 1
      field_simp
    · dsimp only
      rw [map_smul, map_sub, map_smul, map_smul, adj, hAp]
      have e : (1 / (‖p‖ * ρ)) • (‖p‖ ^ 2 • ρb • v - ρb • ‖p‖ • (t + ‖p‖ • v)) - (-(ρb / ρ) * ‖t‖) • (1 / ‖t‖) • t =
          (-(1 / (‖p‖ * ρ) * ρb * ‖p‖) + ρb / ρ * ‖t‖ * (1 / ‖t‖)) • t := by module
      have e1 : -(1 / (‖p‖ * ρ) * ρb * ‖p‖) + ρb / ρ * ‖t‖ * (1 / ‖t‖) = 0 := by
        field_simp; ring
      rw [e1, zero_smul] at e
      exact sub_eq_zero.1 e
    · dsimp only
      have e : A.matvec ((1 / ‖t‖) • t - (‖p‖ / ρ * ‖t‖ / ρ) • w) = A.matvec ((1 / ‖t‖) • t) - (‖p‖ / ρ * ‖t‖ / ρ) • (ρb • q + p) := by
        rw [map_sub, map_smul A.matvec _ w, img]
      rw [e]
      have : A.matvec ((1 / ‖t‖) • t) - (‖p‖ / ρ * ‖t‖ / ρ) • (ρb • q + p) -
          (A.matvec ((1 / ‖t‖) • t) + ((-(ρb / ρ) * ‖t‖) • (1 / (‖p‖ * ρ)) • (‖p‖ ^ 2 • q - ρb • p) - ‖t‖ • (1 / ‖p‖) • p)) =
          (-(‖p‖ / ρ * ‖t‖ / ρ * ρb) + ρb / ρ * ‖t‖ * (1 / (‖p‖ * ρ)) * ‖p‖ ^ 2) • q +
          (-(‖p‖ / ρ * ‖t‖ / ρ) - ρb / ρ * ‖t‖ * (1 / (‖p‖ * ρ)) * ρb + ‖t‖ * (1 / ‖p‖)) • p := by
        module
      have e1 : -(‖p‖ / ρ * ‖t‖ / ρ * ρb) + ρb / ρ * ‖t‖ * (1 / (‖p‖ * ρ)) * ‖p‖ ^ 2 = 0 := by
        field_simp; ring
      have e2 : -(‖p‖ / ρ * ‖t‖ / ρ) - ρb / ρ * ‖t‖ * (1 / (‖p‖ * ρ)) * ρb + ‖t‖ * (1 / ‖p‖) = 0 := by
        have : ρ ≠ 0 := hρ0.ne'
        field_simp
        rw [hρsq]; ring
      rw [e1, e2, zero_smul, zero_smul, add_zero] at this
      rw [sub_eq_zero.1 this]
      abel
    · dsimp only
      rw [real_inner_smul_left, inner_smul_right, inner_sub_left, real_inner_smul_left, real_inner_smul_left, hqp, real_inner_self_eq_norm_sq]
      field_simp
      ring
    · dsimp only
      rw [smul_smul, mul_one_div, div_self h1, one_smul]
    · dsimp only
      rw [smul_smul, mul_one_div, div_self h2, one_smul]

/-- The passes of the loop of `_lsqr` without its stopping test. -/
noncomputable def lsqrTraj (A : LinOp E D) (b : D) (x0 : E) : ℕ → Option (LsqrLive E D) × E
  | 0 => ((Lsqr.init (ι := Fin 0) A b 0 x0).live, x0)
  | k + 1 => match (lsqrTraj A b x0 k).1 with
    | none => (none, (lsqrTraj A b x0 k).2)
    | some l => (Lsqr.next A l, lsqrX A l (lsqrTraj A b x0 k).2)

lemma lsqrTraj_some {A : LinOp E D} {b : D} {x0 : E} {k : ℕ} {l : LsqrLive E D} (h : (lsqrTraj A b x0 k).1 = some l) :
    lsqrTraj A b x0 (k + 1) = (Lsqr.next A l, lsqrX A l (lsqrTraj A b x0 k).2) := by
  rw [lsqrTraj, h]

lemma lsqrTraj_none {A : LinOp E D} {b : D} {x0 : E} {k : ℕ} (h : (lsqrTraj A b x0 k).1 = none) :
    lsqrTraj A b x0 (k + 1) = (none, (lsqrTraj A b x0 k).2) := by
  rw [lsqrTraj, h]

lemma lsqrTraj_inv (A : LinOp E D) (b : D) (x0 : E) : ∀ k, (∀ l, (lsqrTraj A b x0 k).1 = some l → ∃ q, LsqrInv A b (lsqrTraj A b x0 k).2 l q) ∧
    ((lsqrTraj A b x0 k).1 = none → A.rmatvec (b - A.matvec (lsqrTraj A b x0 k).2) = 0)
  | 0 => by
    rcases lsqr_init (ι := Fin 0) A b 0 x0 with ⟨h1, h2⟩ | ⟨l, q, h1, h2, -⟩
    · refine ⟨fun l hl => ?_, fun _ => h2⟩
      rw [lsqrTraj, h1] at hl
      exact absurd hl (by simp)
    · refine ⟨fun l' hl => ?_, fun hn => ?_⟩
      · rw [lsqrTraj, h1, Option.some.injEq] at hl
        exact ⟨q, hl ▸ h2⟩
      · rw [lsqrTraj, h1] at hn
        exact absurd hn (by simp)
  | k + 1 => by
    obtain ⟨h1, h2⟩ := lsqrTraj_inv A b x0 k
    cases hk : (lsqrTraj A b x0 k).1 with
    | none =>
      rw [lsqrTraj_none hk]
      exact ⟨fun l hl => absurd hl (by simp), fun _ => h2 hk⟩
    | some l =>
      obtain ⟨q, hq⟩ := h1 l hk
      obtain ⟨-, -, h3, h4⟩ := lsqr_next hq
      rw [lsqrTraj_some hk]
      exact ⟨fun l' hl' => (h4 l' hl').1, h3⟩

lemma lsqrTraj_none_le {A : LinOp E D} {b : D} {x0 : E} {k m : ℕ} (h : (lsqrTraj A b x0 k).1 = none) (hkm : k ≤ m) : (lsqrTraj A b x0 m).1 = none := by
  induction m, hkm using Nat.le_induction with
  | base => exact h
  | succ m _ ih => rw [lsqrTraj_none ih]

/-- The vectors `v` (and `u`) of the bidiagonalisation are orthonormal as long as it does not break down. -/
lemma lsqr_orthonormal {A : LinOp E D} {b : D} {x0 : E} {L : ℕ → LsqrLive E D} {n : ℕ} (hL : ∀ k ≤ n, (lsqrTraj A b x0 k).1 = some (L k)) :
    ∀ k ≤ n, (∀ j ≤ k, ⟪(L k).u, (L j).u⟫ = if j = k then 1 else 0) ∧ (∀ j ≤ k, ⟪(L k).v, (L j).v⟫ = if j = k then 1 else 0) := by
  -- the relations of the bidiagonalisation
  have hinv : ∀ k ≤ n, ∃ q, LsqrInv A b (lsqrTraj A b x0 k).2 (L k) q := fun k hk => (lsqrTraj_inv A b x0 k).1 _ (hL k hk)
  have hrel : ∀ k, k + 1 ≤ n → ∃ β : ℝ, β ≠ 0 ∧ A.matvec (L k).v = β • (L (k + 1)).u + (L k).α • (L k).u ∧
      A.rmatvec (L (k + 1)).u = (L (k + 1)).α • (L (k + 1)).v + β • (L k).v := fun k hk => by
    obtain ⟨q, hq⟩ := hinv k (by omega)
    have hn : Lsqr.next A (L k) = some (L (k + 1)) := by
      have := hL (k + 1) hk
      rwa [lsqrTraj_some (hL k (by omega))] at this
    obtain ⟨-, h1, h2, h3⟩ := (lsqr_next hq).2.2.2 _ hn
    exact ⟨_, h2, by rw [h1, sub_add_cancel], by rw [h3, sub_add_cancel]⟩
  have hrel0 : A.rmatvec (L 0).u = (L 0).α • (L 0).v := by
    rcases lsqr_init (ι := Fin 0) A b 0 x0 with ⟨h1, -⟩ | ⟨l, q, h1, -, h3⟩
    · have := hL 0 (Nat.zero_le _)
      rw [lsqrTraj, h1] at this
      exact absurd this (by simp)
    · have := hL 0 (Nat.zero_le _)
      rw [lsqrTraj, h1, Option.some.injEq] at this
      exact this ▸ h3
  intro k
  induction k using Nat.strong_induction_on with
  | _ k ih =>
    intro hk
    rcases k with - | k
    · obtain ⟨q, hq⟩ := hinv 0 hk
      refine ⟨fun j hj => ?_, fun j hj => ?_⟩
      · obtain rfl : j = 0 := by omega
        rw [real_inner_self_eq_norm_sq, hq.hu]; simp
      · obtain rfl : j = 0 := by omega
        rw [real_inner_self_eq_norm_sq, hq.hv]; simp
    · obtain ⟨q, hq⟩ := hinv (k + 1) hk
      -- symmetric form of the hypothesis
      have hU : ∀ i ≤ k, ∀ j ≤ k, ⟪(L i).u, (L j).u⟫ = if j = i then 1 else 0 := fun i hi j hj => by
        rcases le_total j i with h | h
        · exact (ih i (by omega) (by omega)).1 j h
        · rw [real_inner_comm, (ih j (by omega) (by omega)).1 i h]
          simp only [eq_comm]
      have hV : ∀ i ≤ k, ∀ j ≤ k, ⟪(L i).v, (L j).v⟫ = if j = i then 1 else 0 := fun i hi j hj => by
        rcases le_total j i with h | h
        · exact (ih i (by omega) (by omega)).2 j h
        · rw [real_inner_comm, (ih j (by omega) (by omega)).2 i h]
          simp only [eq_comm]
      obtain ⟨β, hβ, e1, e2⟩ := hrel k hk
      have hu0 : ∀ j ≤ k, ⟪(L (k + 1)).u, (L j).u⟫ = 0 := fun j hj => by
        have h1 : β * ⟪(L (k + 1)).u, (L j).u⟫ = ⟪A.matvec (L k).v, (L j).u⟫ - (L k).α * ⟪(L k).u, (L j).u⟫ := by
          rw [e1, inner_add_left, real_inner_smul_left, real_inner_smul_left]; ring
        have h2 : ⟪A.matvec (L k).v, (L j).u⟫ = (L k).α * ⟪(L k).u, (L j).u⟫ := by
          rw [A.dot, hU k le_rfl j hj]
          rcases j with - | j
          · rw [hrel0, inner_smul_right, hV k le_rfl 0 hj]
            split_ifs with h
            · rw [← h]
            · simp
          · obtain ⟨β', -, -, e4⟩ := hrel j (by omega)
            rw [e4, inner_add_right, inner_smul_right, inner_smul_right, hV k le_rfl _ hj, hV k le_rfl j (by omega), if_neg (by omega : ¬ j = k)]
            split_ifs with h
            · rw [h]; ring
            · simp
        rw [h2, sub_self] at h1
        exact (mul_eq_zero.1 h1).resolve_left hβ
      have huu : ⟪(L (k + 1)).u, (L (k + 1)).u⟫ = 1 := by rw [real_inner_self_eq_norm_sq, hq.hu, one_pow]
      have hv0 : ∀ j ≤ k, ⟪(L (k + 1)).v, (L j).v⟫ = 0 := fun j hj => by
        have h1 : (L (k + 1)).α * ⟪(L (k + 1)).v, (L j).v⟫ = ⟪A.rmatvec (L (k + 1)).u, (L j).v⟫ - β * ⟪(L k).v, (L j).v⟫ := by
          rw [e2, inner_add_left, real_inner_smul_left, real_inner_smul_left]; ring
        have h2 : ⟪A.rmatvec (L (k + 1)).u, (L j).v⟫ = β * ⟪(L k).v, (L j).v⟫ := by
          rw [real_inner_comm, ← A.dot, real_inner_comm, hV k le_rfl j hj]
          obtain ⟨β', -, e3, -⟩ := hrel j (by omega)
          rw [e3, inner_add_right, inner_smul_right, inner_smul_right, hu0 j hj]
          rcases eq_or_ne j k with h | h
          · subst h
            rw [huu, if_pos rfl]
            -- the two names of the same number
            have : β' = β := by
              have h3 := e1.symm.trans e3
              have h4 : β • (L (j + 1)).u = β' • (L (j + 1)).u := add_right_cancel h3
              have h5 := congrArg (fun t => ⟪(L (j + 1)).u, t⟫) h4
              simp only [inner_smul_right, huu, mul_one] at h5
              exact h5.symm
            rw [this]; ring
          · rw [hu0 (j + 1) (by omega), if_neg h]; ring
        rw [h2, sub_self] at h1
        exact (mul_eq_zero.1 h1).resolve_left hq.hα.ne'
      refine ⟨fun j hj => ?_, fun j hj => ?_⟩
      · rcases Nat.lt_or_eq_of_le hj with h | h
        · rw [hu0 j (by omega), if_neg (by omega)]
        · rw [h, huu, if_pos rfl]
      · rcases Nat.lt_or_eq_of_le hj with h | h
        · rw [hv0 j (by omega), if_neg (by omega)]
        · rw [h, real_inner_self_eq_norm_sq, hq.hv, if_pos rfl, one_pow]

lemma lsqr_dim [FiniteDimensional ℝ E] (A : LinOp E D) (b : D) (x0 : E) : (lsqrTraj A b x0 (Module.finrank ℝ E)).1 = none := by
  by_contra hne
  have hsome : ∀ k ≤ Module.finrank ℝ E, ∃ l, (lsqrTraj A b x0 k).1 = some l := fun k hk => by
    cases h : (lsqrTraj A b x0 k).1 with
    | none => exact absurd (lsqrTraj_none_le h hk) hne
    | some l => exact ⟨l, rfl⟩
  let L : ℕ → LsqrLive E D := fun k => if h : k ≤ Module.finrank ℝ E then (hsome k h).choose else (hsome 0 (Nat.zero_le _)).choose
  have hL : ∀ k ≤ Module.finrank ℝ E, (lsqrTraj A b x0 k).1 = some (L k) := fun k hk => by
    simp only [L, dif_pos hk]
    exact (hsome k hk).choose_spec
  have hort := lsqr_orthonormal hL
  have ho : Orthonormal ℝ (fun i : Fin (Module.finrank ℝ E + 1) => (L i).v) := by
    rw [orthonormal_iff_ite]
    intro i j
    rcases le_total j.1 i.1 with h | h
    · rw [(hort i.1 (by omega)).2 j.1 h]
      simp only [Fin.ext_iff, eq_comm]
    · rw [real_inner_comm, (hort j.1 (by omega)).2 i.1 h]
      simp only [Fin.ext_iff]
  have := ho.linearIndependent.fintype_card_le_finrank
  rw [Fintype.card_fin] at this
  omega

/-! ## The loop -/

lemma lsqr_init_eq (A : LinOp E D) (b : D) (zold : Vec ι) (x0 : E) : Lsqr.init A b zold x0 = ⟨x0, zold, (lsqrTraj A b x0 0).1⟩ := rfl

lemma lsqr_body_none (A : LinOp E D) (Reg : LinOp E (Vec ι)) (κ eps : ℝ) (i : ℕ) (x : E) (z : Vec ι) :
    Lsqr.body A Reg κ eps i ⟨x, z, none⟩ = .error .nanResult := rfl

lemma lsqr_body_some {A : LinOp E D} {b : D} (Reg : LinOp E (Vec ι)) (κ eps : ℝ) (i : ℕ) {x : E} (z : Vec ι) {l : LsqrLive E D} {q : D} (h : LsqrInv A b x l q) :
    Lsqr.body A Reg κ eps i ⟨x, z, some l⟩ = .ok (⟨lsqrX A l x, sr3Threshold (Reg.matvec (lsqrX A l x)) (eps / κ), Lsqr.next A l⟩,
      decide (‖sr3Threshold (Reg.matvec (lsqrX A l x)) (eps / κ) - z‖ < 1e-6 * ‖z‖)) := by
  have := (lsqr_next h).1.ne'
  simp only [Lsqr.body, if_neg this, lsqrX]
  rfl

lemma lsqr_loop {A : LinOp E D} {b : D} {x0 : E} (Reg : LinOp E (Vec ι)) (κ eps : ℝ) (zold : Vec ι) {n : ℕ}
    (hn : (lsqrTraj A b x0 n).1 = none) (hlt : ∀ k < n, (lsqrTraj A b x0 k).1 ≠ none) : ∀ m k i, k ≤ n →
    (∀ j, k ≤ j → j < k + m → j < n → ¬ LsqrStops (lsqrZ Reg (eps / κ) zold fun k => (lsqrTraj A b x0 k).2) j) →
    forRange (Lsqr.body A Reg κ eps) m i ⟨(lsqrTraj A b x0 k).2, lsqrZ Reg (eps / κ) zold (fun k => (lsqrTraj A b x0 k).2) k, (lsqrTraj A b x0 k).1⟩ =
      if k + m ≤ n then .ok ⟨(lsqrTraj A b x0 (k + m)).2, lsqrZ Reg (eps / κ) zold (fun k => (lsqrTraj A b x0 k).2) (k + m), (lsqrTraj A b x0 (k + m)).1⟩
      else .error .nanResult
  | 0, k, i, hk, _ => by rw [add_zero, if_pos hk]; rfl
  | m + 1, k, i, hk, hst => by
    rw [forRange]
    rcases Nat.lt_or_eq_of_le hk with h | h
    · cases hl : (lsqrTraj A b x0 k).1 with
      | none => exact absurd hl (hlt k h)
      | some l =>
        obtain ⟨q, hq⟩ := (lsqrTraj_inv A b x0 k).1 l hl
        rw [lsqr_body_some Reg κ eps i _ hq]
        have hs := hst k le_rfl (by omega) h
        have hx : lsqrX A l (lsqrTraj A b x0 k).2 = (lsqrTraj A b x0 (k + 1)).2 := by rw [lsqrTraj_some hl]
        have hl' : Lsqr.next A l = (lsqrTraj A b x0 (k + 1)).1 := by rw [lsqrTraj_some hl]
        have hz : sr3Threshold (Reg.matvec (lsqrTraj A b x0 (k + 1)).2) (eps / κ) = lsqrZ Reg (eps / κ) zold (fun k => (lsqrTraj A b x0 k).2) (k + 1) := rfl
        rw [hx, hl', hz]
        have hd : decide (‖lsqrZ Reg (eps / κ) zold (fun k => (lsqrTraj A b x0 k).2) (k + 1) - lsqrZ Reg (eps / κ) zold (fun k => (lsqrTraj A b x0 k).2) k‖ <
            1e-6 * ‖lsqrZ Reg (eps / κ) zold (fun k => (lsqrTraj A b x0 k).2) k‖) = false := decide_eq_false hs
        rw [hd]
        simp only [Bool.false_eq_true, if_false]
        rw [lsqr_loop Reg κ eps zold hn hlt m (k + 1) (i + 1) h fun j h1 h2 h3 => hst j (by omega) (by omega) h3, show k + 1 + m = k + (m + 1) by omega]
    · subst h
      rw [hn, lsqr_body_none, if_neg (by omega)]

lemma lsqr_loop_stop {A : LinOp E D} {b : D} {x0 : E} (Reg : LinOp E (Vec ι)) (κ eps : ℝ) (zold : Vec ι) {n : ℕ}
    (hlt : ∀ k < n, (lsqrTraj A b x0 k).1 ≠ none) {j : ℕ} (hj : j < n) (hs : LsqrStops (lsqrZ Reg (eps / κ) zold fun k => (lsqrTraj A b x0 k).2) j)
    (hf : ∀ i < j, ¬ LsqrStops (lsqrZ Reg (eps / κ) zold fun k => (lsqrTraj A b x0 k).2) i) : ∀ m k i, k ≤ j → j < k + m →
    ∃ s, forRange (Lsqr.body A Reg κ eps) m i ⟨(lsqrTraj A b x0 k).2, lsqrZ Reg (eps / κ) zold (fun k => (lsqrTraj A b x0 k).2) k, (lsqrTraj A b x0 k).1⟩ = .ok s ∧
      s.x = (lsqrTraj A b x0 (j + 1)).2
  | 0, k, i, hk, hm => by omega
  | m + 1, k, i, hk, hm => by
    rw [forRange]
    cases hl : (lsqrTraj A b x0 k).1 with
    | none => exact absurd hl (hlt k (by omega))
    | some l =>
      obtain ⟨q, hq⟩ := (lsqrTraj_inv A b x0 k).1 l hl
      rw [lsqr_body_some Reg κ eps i _ hq]
      have hx : lsqrX A l (lsqrTraj A b x0 k).2 = (lsqrTraj A b x0 (k + 1)).2 := by rw [lsqrTraj_some hl]
      have hl' : Lsqr.next A l = (lsqrTraj A b x0 (k + 1)).1 := by rw [lsqrTraj_some hl]
      have hz : sr3Threshold (Reg.matvec (lsqrTraj A b x0 (k + 1)).2) (eps / κ) = lsqrZ Reg (eps / κ) zold (fun k => (lsqrTraj A b x0 k).2) (k + 1) := rfl
      rw [hx, hl', hz]
      rcases Nat.lt_or_eq_of_le hk with h | h
      · have hd : decide (‖lsqrZ Reg (eps / κ) zold (fun k => (lsqrTraj A b x0 k).2) (k + 1) - lsqrZ Reg (eps / κ) zold (fun k => (lsqrTraj A b x0 k).2) k‖ <
            1e-6 * ‖lsqrZ Reg (eps / κ) zold (fun k => (lsqrTraj A b x0 k).2) k‖) = false := decide_eq_false (hf k h)
        rw [hd]
        simp only [Bool.false_eq_true, if_false]
        exact lsqr_loop_stop Reg κ eps zold hlt hj hs hf m (k + 1) (i + 1) h (by omega)
      · subst h
        have hd : decide (‖lsqrZ Reg (eps / κ) zold (fun k => (lsqrTraj A b x0 k).2) (k + 1) - lsqrZ Reg (eps / κ) zold (fun k => (lsqrTraj A b x0 k).2) k‖ <
            1e-6 * ‖lsqrZ Reg (eps / κ) zold (fun k => (lsqrTraj A b x0 k).2) k‖) = true := decide_eq_true hs
        rw [hd]
        exact ⟨_, if_pos rfl, rfl⟩

/-- C122: the runs of the inner solver from `x0`.  There is a sequence of points, independent of `kappa`, `eps`, the regulariser and the limit, along which the residual falls strictly
and which ends, after at most as many passes as there are unknowns, in an exact least-squares solution.  A run that is not stopped by its test within `lim` passes returns
the point number `lim` if the sequence is that long, and NaN otherwise; a run that is stopped by its test returns the point at which the test was met first. -/
theorem C122_lsqr_runs [FiniteDimensional ℝ E] (A : LinOp E D) (b : D) (x0 : E) :
    ∃ n ≤ Module.finrank ℝ E, ∃ xs : ℕ → E, xs 0 = x0 ∧ (∀ k < n, ‖b - A.matvec (xs (k + 1))‖ < ‖b - A.matvec (xs k)‖) ∧
      (∀ y, ‖b - A.matvec (xs n)‖ ≤ ‖b - A.matvec y‖) ∧
      ∀ (Reg : LinOp E (Vec ι)) (κ eps : ℝ) (zold : Vec ι) (lim : ℕ),
        ((∀ j < min lim n, ¬ LsqrStops (lsqrZ Reg (eps / κ) zold xs) j) →
          Lsqr A b lim zold x0 κ eps Reg = if lim ≤ n then .ok (xs lim) else .error .nanResult) ∧
        ∀ j < min lim n, LsqrStops (lsqrZ Reg (eps / κ) zold xs) j → (∀ i < j, ¬ LsqrStops (lsqrZ Reg (eps / κ) zold xs) i) →
          Lsqr A b lim zold x0 κ eps Reg = .ok (xs (j + 1)) := by
  classical
  have hex : ∃ k, (lsqrTraj A b x0 k).1 = none := ⟨_, lsqr_dim A b x0⟩
  have hn := Nat.find_spec hex
  have hlt : ∀ k < Nat.find hex, (lsqrTraj A b x0 k).1 ≠ none := fun k hk => Nat.find_min hex hk
  refine ⟨Nat.find hex, Nat.find_le (lsqr_dim A b x0), fun k => (lsqrTraj A b x0 k).2, rfl, fun k hk => ?_, fun y => ?_, fun Reg κ eps zold lim => ⟨fun hst => ?_, fun j hj hs hf => ?_⟩⟩
  · cases hl : (lsqrTraj A b x0 k).1 with
    | none => exact absurd hl (hlt k hk)
    | some l =>
      obtain ⟨q, hq⟩ := (lsqrTraj_inv A b x0 k).1 l hl
      dsimp only
      rw [lsqrTraj_some hl]
      exact (lsqr_next hq).2.1
  · have h0 := (lsqrTraj_inv A b x0 (Nat.find hex)).2 hn
    dsimp only
    set x := (lsqrTraj A b x0 (Nat.find hex)).2
    have e : b - A.matvec y = (b - A.matvec x) + A.matvec (x - y) := by rw [map_sub]; abel
    have h1 : ⟪b - A.matvec x, A.matvec (x - y)⟫ = 0 := by rw [real_inner_comm, A.dot, h0, inner_zero_right]
    have h2 : ‖b - A.matvec y‖ ^ 2 = ‖b - A.matvec x‖ ^ 2 + ‖A.matvec (x - y)‖ ^ 2 := by
      rw [e, norm_add_sq_real, h1]; ring
    exact (sq_le_sq₀ (norm_nonneg _) (norm_nonneg _)).1 (by nlinarith [sq_nonneg ‖A.matvec (x - y)‖])
  · have h := lsqr_loop Reg κ eps zold hn hlt lim 0 0 (Nat.zero_le _) fun j _ h2 h3 => hst j (by omega)
    rw [Lsqr, lsqr_init_eq]
    rw [zero_add] at h
    have h' : forRange (Lsqr.body A Reg κ eps) lim 0 ⟨x0, zold, (lsqrTraj A b x0 0).1⟩ = _ := h
    rw [h']
    split_ifs <;> rfl
  · obtain ⟨s, h, hx⟩ := lsqr_loop_stop Reg κ eps zold hlt (lt_of_lt_of_le hj (min_le_right _ _)) hs hf lim 0 0 (Nat.zero_le _) (by omega)
    rw [Lsqr, lsqr_init_eq]
    have h' : forRange (Lsqr.body A Reg κ eps) lim 0 ⟨x0, zold, (lsqrTraj A b x0 0).1⟩ = _ := h
    rw [h']
    exact congrArg Except.ok hx

/-- C122: whatever stops it, an inner solve that returns does not increase the residual, and a solve with at least one pass decreases it. -/
theorem C122_lsqr_descends [FiniteDimensional ℝ E] (A : LinOp E D) (b : D) (lim : ℕ) (zold : Vec ι) (x0 : E) (κ eps : ℝ) (Reg : LinOp E (Vec ι)) (x : E)
    (h : Lsqr A b lim zold x0 κ eps Reg = .ok x) : ‖b - A.matvec x‖ ≤ ‖b - A.matvec x0‖ ∧ (0 < lim → ‖b - A.matvec x‖ < ‖b - A.matvec x0‖) := by
  classical
  obtain ⟨n, -, xs, h0, hdec, -, hrun⟩ := C122_lsqr_runs (ι := ι) A b x0
  have hmono : ∀ k ≤ n, ‖b - A.matvec (xs k)‖ ≤ ‖b - A.matvec x0‖ ∧ (0 < k → ‖b - A.matvec (xs k)‖ < ‖b - A.matvec x0‖) := by
    intro k
    induction k with
    | zero => exact fun _ => ⟨by rw [h0], fun h => absurd h (lt_irrefl 0)⟩
    | succ k ih =>
      intro hk
      have := (hdec k (by omega)).trans_le (ih (by omega)).1
      exact ⟨this.le, fun _ => this⟩
  obtain ⟨h1, h2⟩ := hrun Reg κ eps zold lim
  by_cases hs : ∃ j, j < min lim n ∧ LsqrStops (lsqrZ Reg (eps / κ) zold xs) j
  · have hj := Nat.find_spec hs
    rw [h2 (Nat.find hs) hj.1 hj.2 fun i hi hst => Nat.find_min hs hi ⟨by omega, hst⟩, Except.ok.injEq] at h
    rw [← h]
    exact ⟨(hmono _ (by omega)).1, fun _ => (hmono _ (by omega)).2 (by omega)⟩
  · push Not at hs
    rw [h1 hs] at h
    split_ifs at h with hl
    rw [Except.ok.injEq] at h
    rw [← h]
    exact hmono _ hl

lemma vstack2_res (Op : LinOp E F) (Reg : LinOp E (Vec ι)) {κ : ℝ} (hκ : 0 ≤ κ) (data : F) (v : Vec ι) (x : E) :
    ‖WithLp.toLp 2 (data, Real.sqrt κ • v) - (vstack2 Op (Real.sqrt κ) Reg).matvec x‖ ^ 2 = ‖Op.matvec x - data‖ ^ 2 + κ * ‖Reg.matvec x - v‖ ^ 2 := by
  rw [WithLp.prod_norm_sq_eq_of_L2]
  have e1 : (WithLp.toLp 2 (data, Real.sqrt κ • v) - (vstack2 Op (Real.sqrt κ) Reg).matvec x).fst = data - Op.matvec x := rfl
  have e2 : (WithLp.toLp 2 (data, Real.sqrt κ • v) - (vstack2 Op (Real.sqrt κ) Reg).matvec x).snd = Real.sqrt κ • v - Real.sqrt κ • Reg.matvec x := rfl
  rw [e1, e2, ← smul_sub, norm_smul, mul_pow, norm_sub_rev, norm_sub_rev v, Real.norm_of_nonneg (Real.sqrt_nonneg κ), Real.sq_sqrt hκ]

/-- C122: every further outer pass of `SR3` (`adaptive=True`) that returns either changes nothing, the run having stopped before, or lowers
`‖A x - b‖² + kappa ‖L x - v‖²`, where `v` is the sparse variable before the pass. -/
theorem C122_sr3_descends [FiniteDimensional ℝ E] (Op : LinOp E F) (Reg : LinOp E (Vec ι)) (data : F) {κ : ℝ} (hκ : 0 < κ) (eps : ℝ) (x0 : Option E) (n lim : ℕ) (hlim : 0 < lim)
    (s s' : SR3State E (Vec ι)) (h : SR3 Op Reg data κ eps x0 none n lim = .ok s) (h' : SR3 Op Reg data κ eps x0 none (n + 1) lim = .ok s') :
    s' = s ∨ ‖Op.matvec s'.x - data‖ ^ 2 + κ * ‖Reg.matvec s'.x - s.v‖ ^ 2 < ‖Op.matvec s.x - data‖ ^ 2 + κ * ‖Reg.matvec s.x - s.v‖ ^ 2 := by
  rw [SR3, if_neg hκ.ne', if_neg (by simp [hκ.le])] at h h'
  rcases forRange_step n 0 _ s s' h h' with hs | ⟨b, hb⟩
  · exact Or.inl hs
  right
  simp only [SR3.body, SR3.inner] at hb
  cases hx : Lsqr (vstack2 Op (Real.sqrt κ) Reg) (WithLp.toLp 2 (data, Real.sqrt κ • s.v)) lim s.v s.x κ eps Reg with
  | error e => rw [hx] at hb; exact absurd hb (by simp)
  | ok x =>
    have hd := (C122_lsqr_descends _ _ _ _ _ _ _ _ _ hx).2 hlim
    rw [← sq_lt_sq₀ (norm_nonneg _) (norm_nonneg _), vstack2_res Op Reg hκ.le, vstack2_res Op Reg hκ.le] at hd
    rw [hx] at hb
    dsimp only at hb
    have hsx : s'.x = x := by
      split_ifs at hb <;> (simp only [Except.ok.injEq, Prod.mk.injEq] at hb; rw [← hb.1])
    rw [hsx]
    exact hd

/-- C122, refutation of "SR3 with `adaptive=True` returns a finite vector": for all operators, data and starting points, once `eps` is large and the inner limit exceeds the
number of unknowns the result is NaN, because the inner solver does not stop at the solution it has found. -/
theorem C122_large_eps_refuted [FiniteDimensional ℝ E] (Op : LinOp E F) (Reg : LinOp E (Vec ι)) (data : F) {κ : ℝ} (hκ : 0 < κ) (x0 : Option E) :
    ∃ eps0, ∀ eps ≥ eps0, ∀ limOuter limInner, 0 < limOuter → Module.finrank ℝ E < limInner →
      SR3 Op Reg data κ eps x0 none limOuter limInner = .error .nanResult := by
  obtain ⟨n, hnE, xs, h0, -, -, hrun⟩ := C122_lsqr_runs (ι := ι) (vstack2 Op (Real.sqrt κ) Reg) (WithLp.toLp 2 (data, Real.sqrt κ • (0 : Vec ι))) (x0.getD 0)
  refine ⟨κ * ∑ k ∈ Finset.range (n + 1), ‖Reg.matvec (xs k)‖, fun eps heps limOuter limInner ho hi => ?_⟩
  have hz : ∀ k ≤ n, lsqrZ Reg (eps / κ) 0 xs k = 0 := fun k hk => by
    rcases k with - | k
    · rfl
    · ext i
      simp only [lsqrZ, vmk, PiLp.zero_apply]
      have h1 : |Reg.matvec (xs (k + 1)) i| ≤ ‖Reg.matvec (xs (k + 1))‖ := by
        have := PiLp.norm_apply_le (Reg.matvec (xs (k + 1))) i
        rwa [Real.norm_eq_abs] at this
      have h2 := Finset.single_le_sum (f := fun k => ‖Reg.matvec (xs k)‖) (fun k _ => norm_nonneg _) (Finset.mem_range.2 (by omega : k + 1 < n + 1))
      have h3 : ∑ k ∈ Finset.range (n + 1), ‖Reg.matvec (xs k)‖ ≤ eps / κ := by
        rw [le_div_iff₀ hκ, mul_comm]; exact heps
      rw [max_eq_right (by linarith), mul_zero]
  have hL : Lsqr (vstack2 Op (Real.sqrt κ) Reg) (WithLp.toLp 2 (data, Real.sqrt κ • (0 : Vec ι))) limInner 0 (x0.getD 0) κ eps Reg = .error .nanResult := by
    rw [(hrun Reg κ eps 0 limInner).1 fun j hj => ?_, if_neg (by omega)]
    unfold LsqrStops
    rw [hz j (by omega), hz (j + 1) (by omega)]
    simp
  obtain ⟨m, rfl⟩ : ∃ m, limOuter = m + 1 := ⟨limOuter - 1, by omega⟩
  rw [SR3, if_neg hκ.ne', if_neg (by simp [hκ.le])]
  simp only [forRange, SR3.body, SR3.inner, hL]

/-- A concrete case: one unknown, two data, an inner limit of one pass: the run returns. -/
example : ∃ x : ℝ, Lsqr (D := ℝ) (⟨LinearMap.id, LinearMap.id, fun _ _ => rfl⟩ : LinOp ℝ ℝ) 2 1 (0 : Vec (Fin 1)) 0 1 1
    ⟨0, 0, fun x y => by simp⟩ = .ok x ∧ ‖(2 : ℝ) - x‖ < ‖(2 : ℝ) - 0‖ := by
  classical
  obtain ⟨n, hn, xs, h0, -, hmin, hrun⟩ := C122_lsqr_runs (ι := Fin 1) (⟨LinearMap.id, LinearMap.id, fun _ _ => rfl⟩ : LinOp ℝ ℝ) 2 0
  have hn1 : n ≤ 1 := by simpa using hn
  have hn0 : n ≠ 0 := fun h => by
    have := hmin 2
    rw [h, h0] at this
    norm_num at this
  have hn' : n = 1 := by omega
  subst hn'
  have hx := (hrun ⟨0, 0, fun x y => by simp⟩ 1 1 0 1).1 fun j hj => by
    have : j = 0 := by omega
    subst this
    simp [LsqrStops, lsqrZ]
  rw [if_pos le_rfl] at hx
  exact ⟨_, hx, (C122_lsqr_descends _ _ _ _ _ _ _ _ _ hx).2 one_pos⟩

end Verif
