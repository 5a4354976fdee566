import Verif.Props.Nuclear
import Mathlib.Data.Fin.Tuple.Sort
import Mathlib.Algebra.Order.Rearrangement

/-! # C91: the weighted nuclear norm -/

open scoped RealInnerProductSpace

namespace Verif

variable {ι κ : Type} [Fintype ι] [Fintype κ] {r M N : ℕ}

lemma getD_of_lt {l : List ℝ} {i : ℕ} (h : i < l.length) : l.getD i 0 = l[i] := by
  simp [List.getD_eq_getElem?_getD, h]

lemma svd_perm {x : Vec (ι × κ)} {u : Fin r → Vec ι} {s : Fin r → ℝ} {v : Fin r → Vec κ} (h : IsSVD x u s v) (π : Equiv.Perm (Fin r)) :
    IsSVD x (u ∘ π) (s ∘ π) (v ∘ π) := by
  refine ⟨h.left.comp _ π.injective, h.right.comp _ π.injective, fun k => h.nonneg _, fun i j => ?_⟩
  rw [h.sum i j, ← Equiv.sum_comp π]
  rfl

lemma exists_sorted_svd (hr : r = min (Fintype.card ι) (Fintype.card κ)) (x : Vec (ι × κ)) :
    ∃ (u : Fin r → Vec ι) (s : Fin r → ℝ) (v : Fin r → Vec κ), IsSVD x u s v ∧ Antitone s := by
  obtain ⟨u, s, v, h⟩ := exists_svd (ρ := Fin r) x (by simpa using hr)
  refine ⟨_, _, _, svd_perm h (Tuple.sort fun k => - s k), fun a b hab => ?_⟩
  have := Tuple.monotone_sort (fun k => - s k) hab
  simpa using this

lemma sorted_svd_unique {x : Vec (ι × κ)} {u p : Fin r → Vec ι} {s t : Fin r → ℝ} {v q : Fin r → Vec κ} (hx : IsSVD x u s v) (hy : IsSVD x p t q) (hs : Antitone s)
    (ht : Antitone t) : s = t := by
  obtain ⟨π, hπ⟩ := svd_unique hx hy
  have e : t ∘ π = s := funext hπ
  have := Tuple.unique_antitone (f := t) (σ := π) (τ := 1) (by rw [e]; exact hs) (by simpa using ht)
  rw [← e, this]
  rfl

/-- The distance of two matrices is at least that of their sorted singular values. -/
lemma sorted_svd_dist {x y : Vec (ι × κ)} {u p : Fin r → Vec ι} {s t : Fin r → ℝ} {v q : Fin r → Vec κ} (hx : IsSVD x u s v) (hy : IsSVD y p t q) (hs : Antitone s)
    (ht : Antitone t) : ∑ k, (t k - s k) ^ 2 ≤ ‖y - x‖ ^ 2 := by
  obtain ⟨π, h⟩ := von_neumann hx hy
  have h2 : ∑ k, s k * t (π k) ≤ ∑ k, s k * t k := (hs.monovary ht).sum_mul_comp_perm_le_sum_mul
  have e1 : ‖x‖ ^ 2 = ∑ k, s k ^ 2 := by
    rw [hx.eq_recon, norm_recon_sq hx.left hx.right, EuclideanSpace.norm_sq_eq]; simp
  have e2 : ‖y‖ ^ 2 = ∑ k, t k ^ 2 := by
    rw [hy.eq_recon, norm_recon_sq hy.left hy.right, EuclideanSpace.norm_sq_eq]; simp
  have e3 : ∑ k, (t k - s k) ^ 2 = ∑ k, t k ^ 2 - 2 * ∑ k, s k * t k + ∑ k, s k ^ 2 := by
    rw [Finset.mul_sum, ← Finset.sum_sub_distrib, ← Finset.sum_add_distrib]
    exact Finset.sum_congr rfl fun k _ => by ring
  rw [e3, norm_sub_sq_real y x, e1, e2, real_inner_comm]
  linarith

lemma recon_dist {x : Vec (ι × κ)} {u : Fin r → Vec ι} {s : Fin r → ℝ} {v : Fin r → Vec κ} (hx : IsSVD x u s v) (t : Fin r → ℝ) :
    ‖recon u t v - x‖ ^ 2 = ∑ k, (t k - s k) ^ 2 := by
  rw [hx.eq_recon, recon_sub, norm_recon_sq hx.left hx.right, EuclideanSpace.norm_sq_eq]
  simp

/-- C91: there is exactly one function that is the weighted nuclear norm. -/
theorem C91_weighted_norm_exists (hr : r = min (Fintype.card ι) (Fintype.card κ)) (w : Fin r → ℝ) : ∃! f : Vec (ι × κ) → ℝ, IsWeightedNuc w f := by
  choose u s v h hs using fun x : Vec (ι × κ) => exists_sorted_svd hr x
  refine ⟨fun x => ∑ k, w k * s x k, fun x u' s' v' h' hs' => ?_, fun g hg => ?_⟩
  · simp only [sorted_svd_unique (h x) h' (hs x) hs']
  · ext x
    exact hg x _ _ _ (h x) (hs x)

/-- What is assumed of `np.linalg.svd` in addition: the singular values are returned in descending order. -/
def SvdDescending (svd : Vec (ι × κ) → SVD ι κ (Fin r)) : Prop := SvdExact svd ∧ ∀ x, Antitone (svd x).s

lemma soft_scalar_min {s w τ : ℝ} (hs : 0 ≤ s) (hw : 0 ≤ w) (hτ : 0 < τ) (t : ℝ) (ht : 0 ≤ t) :
    w * softScalar s (τ * w) + (softScalar s (τ * w) - s) ^ 2 / (2 * τ) ≤ w * t + (t - s) ^ 2 / (2 * τ) := by
  have := (soft_isUniqueProx hw hτ s).1.2 t trivial
  simp only [proxObj, XFun.ofReal, Real.norm_eq_abs, sq_abs] at this
  have h0 : 0 ≤ softScalar s (τ * w) := by
    unfold softScalar
    exact mul_nonneg (le_max_right _ _) (by unfold npsign; split_ifs <;> linarith)
  rwa [abs_of_nonneg h0, abs_of_nonneg ht] at this

lemma weighted_prox_eq {svd : Vec (Fin M × Fin N) → SVD (Fin M) (Fin N) (Fin r)} (eig : Vec (Fin M × Fin N) → Fin N → ℝ) {sigma : List ℝ} (h1 : 1 < sigma.length) (hl : r ≤ sigma.length)
    (x : Vec (Fin M × Fin N)) {τ : ℝ} (hτ : 0 < τ) :
    (NuclearW svd eig sigma).prox x τ = .ok (recon (svd x).u (fun k => softScalar ((svd x).s k) (τ * sigma.getD k 0)) (svd x).v) := by
  simp only [NuclearW, ProxOp.prox, checkTau_pos hτ, if_pos h1]
  have hlen : (List.ofFn (svd x).s).length = ((sigma.take r).map (τ * ·)).length := by simp [hl]
  rw [npBroadcast, if_pos hlen]
  simp only [Bind.bind, Except.bind]
  rw [if_pos (by simp [hl])]
  simp only [Pure.pure, Except.pure]
  congr 2
  ext k
  have hk : (k : ℕ) < sigma.length := by omega
  rw [getD_of_lt (by simp; omega), getD_of_lt hk]
  simp

/-- C91: `prox` returns a global minimiser of `Σ σ_i λ_i(Y) + ‖Y-X‖²/(2 tau)` whenever the shrunk singular values are still in descending order. -/
theorem C91_prox_ordered_partial (hr : r = min M N) {svd : Vec (Fin M × Fin N) → SVD (Fin M) (Fin N) (Fin r)} (hsvd : SvdDescending svd) (eig : Vec (Fin M × Fin N) → Fin N → ℝ) {sigma : List ℝ}
    (h1 : 1 < sigma.length) (hl : r ≤ sigma.length) (hpos : ∀ a ∈ sigma, 0 ≤ a) {f : Vec (Fin M × Fin N) → ℝ} (hf : IsWeightedNuc (fun k : Fin r => sigma.getD k 0) f)
    (x : Vec (Fin M × Fin N)) {τ : ℝ} (hτ : 0 < τ) (hord : Antitone fun k : Fin r => max ((svd x).s k - τ * sigma.getD k 0) 0) :
    ∃ p, (NuclearW svd eig sigma).prox x τ = .ok p ∧ IsProx (.ofReal f) τ x p := by
  refine ⟨_, weighted_prox_eq eig h1 hl x hτ, trivial, fun y _ => ?_⟩
  have hS := hsvd.1 x
  have hw : ∀ k : Fin r, 0 ≤ sigma.getD k 0 := fun k => by
    have hk : (k : ℕ) < sigma.length := by omega
    rw [getD_of_lt hk]
    exact hpos _ (List.getElem_mem _)
  have hsoft : ∀ k, softScalar ((svd x).s k) (τ * sigma.getD k 0) = max ((svd x).s k - τ * sigma.getD k 0) 0 := fun k => by
    unfold softScalar npsign
    rw [abs_of_nonneg (hS.nonneg k)]
    rcases (hS.nonneg k).eq_or_lt with h | h
    · rw [← h]
      have := mul_nonneg hτ.le (hw k)
      rw [max_eq_right (by linarith), zero_mul]
    · rw [if_pos h, mul_one]
  obtain ⟨p, t, q, hy, ht⟩ := exists_sorted_svd (r := r) (by simpa using hr) y
  have hP : IsSVD (recon (svd x).u (fun k => softScalar ((svd x).s k) (τ * sigma.getD k 0)) (svd x).v) _ _ _ :=
    isSVD_recon hS.left hS.right fun k => by rw [hsoft]; exact le_max_right _ _
  have e1 := hf _ _ _ _ hP (by simpa only [hsoft] using hord)
  have e2 := hf _ _ _ _ hy ht
  have h3 := sorted_svd_dist hS hy (hsvd.2 x) ht
  simp only [proxObj, XFun.ofReal]
  rw [e1, e2, recon_dist hS]
  calc _ = ∑ k : Fin r, (sigma.getD k 0 * softScalar ((svd x).s k) (τ * sigma.getD k 0) + (softScalar ((svd x).s k) (τ * sigma.getD k 0) - (svd x).s k) ^ 2 / (2 * τ)) := by
        rw [Finset.sum_add_distrib, Finset.sum_div]
    _ ≤ ∑ k : Fin r, (sigma.getD k 0 * t k + (t k - (svd x).s k) ^ 2 / (2 * τ)) := Finset.sum_le_sum fun k _ => soft_scalar_min (hS.nonneg k) (hw k) hτ _ (hy.nonneg k)
    _ = ∑ k : Fin r, sigma.getD k 0 * t k + (∑ k, (t k - (svd x).s k) ^ 2) / (2 * τ) := by rw [Finset.sum_add_distrib, Finset.sum_div]
    _ ≤ _ := by gcongr

/-- C91: for non-descending weights, `prox` returns a global minimiser for every matrix and step. -/
theorem C91_prox_nondescending_partial (hr : r = min M N) {svd : Vec (Fin M × Fin N) → SVD (Fin M) (Fin N) (Fin r)} (hsvd : SvdDescending svd) (eig : Vec (Fin M × Fin N) → Fin N → ℝ) {sigma : List ℝ}
    (h1 : 1 < sigma.length) (hl : r ≤ sigma.length) (hpos : ∀ a ∈ sigma, 0 ≤ a) (hmono : sigma.SortedLE) {f : Vec (Fin M × Fin N) → ℝ}
    (hf : IsWeightedNuc (fun k : Fin r => sigma.getD k 0) f) (x : Vec (Fin M × Fin N)) {τ : ℝ} (hτ : 0 < τ) :
    ∃ p, (NuclearW svd eig sigma).prox x τ = .ok p ∧ IsProx (.ofReal f) τ x p := by
  refine C91_prox_ordered_partial hr hsvd eig h1 hl hpos hf x hτ fun a b hab => ?_
  have h2 := hsvd.2 x hab
  have h3 : sigma.getD a 0 ≤ sigma.getD b 0 := by
    have ha : (a : ℕ) < sigma.length := by omega
    have hb : (b : ℕ) < sigma.length := by omega
    rw [getD_of_lt ha, getD_of_lt hb]
    exact hmono.getElem_le_getElem_of_le (by simpa using hab)
  have := mul_le_mul_of_nonneg_left h3 hτ.le
  exact max_le_max (by linarith) le_rfl

/-! ## Weights that are not in ascending order -/

/-- The singular values of the counterexample: well separated up to `k`, equal at `k` and `k+1`, zero after that. -/
noncomputable def descentVals (k : ℕ) (D : ℝ) (i : Fin r) : ℝ := if (i : ℕ) ≤ k then (2 + (k - i : ℕ)) * D else if (i : ℕ) = k + 1 then 2 * D else 0

/-- Values that agree with the shrunk ones except at `k` and `k+1`. -/
noncomputable def descentShrunk (k : ℕ) (D τ : ℝ) (w : ℕ → ℝ) (α β : ℝ) (i : Fin r) : ℝ :=
  if (i : ℕ) < k then (2 + (k - i : ℕ)) * D - τ * w i else if (i : ℕ) = k then α else if (i : ℕ) = k + 1 then β else 0

lemma descentShrunk_antitone {k : ℕ} {D τ : ℝ} {w : ℕ → ℝ} {α β : ℝ} (hD : 0 < D) (hw : ∀ i, i ≤ r → 0 ≤ τ * w i ∧ τ * w i ≤ D) (hα : α ≤ 2 * D) (hβ : β ≤ α) (hβ0 : 0 ≤ β) :
    Antitone (descentShrunk k D τ w α β : Fin r → ℝ) := by
  intro a b hab
  have hab' : (a : ℕ) ≤ b := hab
  rcases hab'.eq_or_lt with h | h
  · rw [Fin.ext h]
  have ha := hw a (by omega)
  have hb := hw b (by omega)
  unfold descentShrunk
  by_cases h1 : (a : ℕ) < k
  · rw [if_pos h1]
    have hc : (1 : ℝ) ≤ ((k - a : ℕ) : ℝ) := by exact_mod_cast (by omega : 1 ≤ k - a)
    by_cases h2 : (b : ℕ) < k
    · rw [if_pos h2]
      have : ((k - b : ℕ) : ℝ) + 1 ≤ ((k - a : ℕ) : ℝ) := by exact_mod_cast (by omega : k - b + 1 ≤ k - a)
      nlinarith
    · rw [if_neg h2]
      split_ifs <;> nlinarith
  · rw [if_neg h1, if_neg (by omega)]
    split_ifs <;> first | omega | linarith

lemma descentShrunk_swap {k : ℕ} (hk : k + 1 < r) (D τ : ℝ) (w : ℕ → ℝ) (α β : ℝ) :
    (descentShrunk k D τ w α β : Fin r → ℝ) ∘ Equiv.swap ⟨k, by omega⟩ ⟨k + 1, hk⟩ = descentShrunk k D τ w β α := by
  ext i
  simp only [Function.comp]
  by_cases h1 : i = ⟨k, by omega⟩
  · subst h1
    rw [Equiv.swap_apply_left]
    simp [descentShrunk]
  by_cases h2 : i = ⟨k + 1, hk⟩
  · subst h2
    rw [Equiv.swap_apply_right]
    simp [descentShrunk]
  rw [Equiv.swap_apply_of_ne_of_ne h1 h2]
  have h1' : (i : ℕ) ≠ k := fun h => h1 (Fin.ext h)
  have h2' : (i : ℕ) ≠ k + 1 := fun h => h2 (Fin.ext h)
  simp [descentShrunk, h1', h2']

/-- C91: if some weight is larger than the next one, in particular for the non-ascending weights for which the function is convex, there are matrices of every size for which the result of `prox`
is not a minimiser. -/
theorem C91_prox_order_refuted (hr : r = min M N) {svd : Vec (Fin M × Fin N) → SVD (Fin M) (Fin N) (Fin r)} (hsvd : SvdDescending svd) (eig : Vec (Fin M × Fin N) → Fin N → ℝ) {sigma : List ℝ}
    (h1 : 1 < sigma.length) (hl : r ≤ sigma.length) (hpos : ∀ a ∈ sigma, 0 ≤ a) {k : ℕ} (hk : k + 1 < r) (hdesc : sigma.getD (k + 1) 0 < sigma.getD k 0) {f : Vec (Fin M × Fin N) → ℝ}
    (hf : IsWeightedNuc (fun k : Fin r => sigma.getD k 0) f) {τ : ℝ} (hτ : 0 < τ) :
    ∃ x p, (NuclearW svd eig sigma).prox x τ = .ok p ∧ ¬ IsProx (.ofReal f) τ x p := by
  set w : ℕ → ℝ := fun i => sigma.getD i 0 with hwdef
  have hw : ∀ i, 0 ≤ w i := fun i => by
    by_cases hi : i < sigma.length
    · simp only [hwdef]; rw [getD_of_lt hi]; exact hpos _ (List.getElem_mem _)
    · simp [hwdef, List.getD_eq_getElem?_getD, not_lt.1 hi]
  set D : ℝ := τ * (∑ i ∈ Finset.range (r + 1), w i) with hD
  have hwD : ∀ i, i ≤ r → τ * w i ≤ D := fun i hi =>
    mul_le_mul_of_nonneg_left (Finset.single_le_sum (f := w) (fun j _ => hw j) (by simp; omega)) hτ.le
  have hD0 : 0 < D := by
    have := hwD k (by omega)
    have h2 : 0 < w k := lt_of_le_of_lt (hw (k + 1)) hdesc
    have := mul_pos hτ h2
    linarith
  -- an SVD with these singular values
  obtain ⟨u0, s00, v0, h0⟩ := exists_svd (ρ := Fin r) (0 : Vec (Fin M × Fin N)) (by simpa using hr)
  have hs0 : ∀ i : Fin r, 0 ≤ descentVals k D i := fun i => by
    unfold descentVals; split_ifs <;> positivity
  have hanti : Antitone (descentVals k D : Fin r → ℝ) := by
    intro a b hab
    have hab' : (a : ℕ) ≤ b := hab
    unfold descentVals
    by_cases hb : (b : ℕ) ≤ k
    · rw [if_pos hb, if_pos (by omega)]
      have : ((k - b : ℕ) : ℝ) ≤ ((k - a : ℕ) : ℝ) := by exact_mod_cast (by omega)
      nlinarith
    · rw [if_neg hb]
      by_cases hb2 : (b : ℕ) = k + 1
      · rw [if_pos hb2]
        by_cases ha : (a : ℕ) ≤ k
        · rw [if_pos ha]
          have : (0 : ℝ) ≤ ((k - a : ℕ) : ℝ) := Nat.cast_nonneg _
          nlinarith
        · rw [if_neg ha, if_pos (by omega)]
      · rw [if_neg hb2]
        split_ifs <;> positivity
  set x : Vec (Fin M × Fin N) := recon u0 (descentVals k D) v0 with hx
  have hxs : (svd x).s = descentVals k D := sorted_svd_unique (hsvd.1 x) (isSVD_recon h0.left h0.right hs0) (hsvd.2 x) hanti
  have hS := hsvd.1 x
  rw [hxs] at hS
  refine ⟨x, _, weighted_prox_eq eig h1 hl x hτ, fun hcon => ?_⟩
  have hwr : ∀ i, i ≤ r → 0 ≤ τ * w i ∧ τ * w i ≤ D := fun i hi => ⟨mul_nonneg hτ.le (hw i), hwD i hi⟩
  have hsoft : (fun i : Fin r => softScalar ((svd x).s i) (τ * sigma.getD i 0)) = descentShrunk k D τ w (2 * D - τ * w k) (2 * D - τ * w (k + 1)) := by
    ext i
    have hi := hwr i (by omega)
    have hi2 : sigma.getD i 0 = w i := rfl
    rw [hxs, hi2]
    have key : ∀ s : ℝ, 2 * D ≤ s → softScalar s (τ * w i) = s - τ * w i := fun s hs => by
      unfold softScalar npsign
      rw [abs_of_pos (by linarith), if_pos (by linarith), mul_one, max_eq_left (by linarith)]
    unfold descentVals descentShrunk
    have hc : (0 : ℝ) ≤ ((k - i : ℕ) : ℝ) := Nat.cast_nonneg _
    by_cases h3 : (i : ℕ) < k
    · rw [if_pos h3, if_pos (by omega), key _ (by nlinarith)]
    · rw [if_neg h3]
      by_cases h4 : (i : ℕ) = k
      · rw [if_pos h4, if_pos (by omega), key _ (by nlinarith), h4]
        simp
      · rw [if_neg h4, if_neg (by omega)]
        by_cases h5 : (i : ℕ) = k + 1
        · rw [if_pos h5, if_pos h5, key _ le_rfl, h5]
        · rw [if_neg h5, if_neg h5]
          simp [softScalar, npsign]
  rw [hsoft] at hcon
  set c := 2 * D - τ * ((w k + w (k + 1)) / 2) with hc
  have hwk := hwr k (by omega)
  have hwk1 := hwr (k + 1) (by omega)
  have hlt : τ * w (k + 1) < τ * w k := mul_lt_mul_of_pos_left hdesc hτ
  have hnn : ∀ α β : ℝ, 0 ≤ α → 0 ≤ β → ∀ i : Fin r, 0 ≤ descentShrunk k D τ w α β i := by
    intro α β hα hβ i
    have hi := hwr i (by omega)
    have hc : (0 : ℝ) ≤ ((k - i : ℕ) : ℝ) := Nat.cast_nonneg _
    unfold descentShrunk
    split_ifs <;> first | nlinarith | assumption | exact le_rfl
  have hP := svd_perm (isSVD_recon hS.left hS.right (hnn (2 * D - τ * w k) (2 * D - τ * w (k + 1)) (by linarith) (by linarith))) (Equiv.swap ⟨k, by omega⟩ ⟨k + 1, hk⟩)
  rw [descentShrunk_swap hk] at hP
  have eP := hf _ _ _ _ hP (descentShrunk_antitone hD0 hwr (by linarith) (by linarith) (by linarith))
  have hY := isSVD_recon hS.left hS.right (hnn c c (by rw [hc]; linarith) (by rw [hc]; linarith))
  have eY := hf _ _ _ _ hY (descentShrunk_antitone hD0 hwr (by rw [hc]; linarith) le_rfl (by rw [hc]; linarith))
  have h := hcon.2 (recon (svd x).u (descentShrunk k D τ w c c) (svd x).v) trivial
  simp only [proxObj, XFun.ofReal] at h
  rw [eP, eY, recon_dist hS, recon_dist hS, Finset.sum_div, Finset.sum_div, ← Finset.sum_add_distrib, ← Finset.sum_add_distrib, ← sub_nonneg, ← Finset.sum_sub_distrib,
    Finset.sum_eq_add (⟨k, by omega⟩ : Fin r) ⟨k + 1, hk⟩ (by simp)] at h
  · simp only [descentShrunk, descentVals, lt_irrefl, if_false, if_true, le_refl, Nat.not_succ_lt_self, Nat.succ_ne_self, Nat.sub_self, Nat.cast_zero, add_zero,
      show ¬ k + 1 ≤ k by omega, show ¬ k + 1 < k by omega, show ¬ k + 1 = k by omega] at h
    have hw1 : sigma.getD k 0 = w k := rfl
    have hw2 : sigma.getD (k + 1) 0 = w (k + 1) := rfl
    rw [hw1, hw2, hc] at h
    have e : (w k * (2 * D - τ * ((w k + w (k + 1)) / 2)) + (2 * D - τ * ((w k + w (k + 1)) / 2) - 2 * D) ^ 2 / (2 * τ) -
          (w k * (2 * D - τ * w (k + 1)) + (2 * D - τ * w k - 2 * D) ^ 2 / (2 * τ)) +
        (w (k + 1) * (2 * D - τ * ((w k + w (k + 1)) / 2)) + (2 * D - τ * ((w k + w (k + 1)) / 2) - 2 * D) ^ 2 / (2 * τ) -
          (w (k + 1) * (2 * D - τ * w k) + (2 * D - τ * w (k + 1) - 2 * D) ^ 2 / (2 * τ)))) = - (3 / 4 * τ * (w k - w (k + 1)) ^ 2) := by
      field_simp
      ring
    have hpos2 : 0 < 3 / 4 * τ * (w k - w (k + 1)) ^ 2 := by
      have : 0 < w k - w (k + 1) := sub_pos.2 hdesc
      positivity
    linarith [e ▸ h]
  · intro i _ hi
    have h1' : (i : ℕ) ≠ k := fun h => hi.1 (Fin.ext h)
    have h2' : (i : ℕ) ≠ k + 1 := fun h => hi.2 (Fin.ext h)
    simp [descentShrunk, h1', h2']
  · simp
  · simp

/-! ## The value -/

/-- Two descending sequences of non-negative numbers with the same positive entries are equal. -/
lemma antitone_eq_of_sums {n : ℕ} {a b : Fin n → ℝ} (ha : Antitone a) (hb : Antitone b) (ha0 : ∀ i, 0 ≤ a i) (hb0 : ∀ i, 0 ≤ b i)
    (h : ∀ g : ℝ → ℝ, g 0 = 0 → ∑ i, g (a i) = ∑ i, g (b i)) : a = b := by
  have key : ∀ {a b : Fin n → ℝ}, Antitone a → Antitone b → (∀ i, 0 ≤ a i) → (∀ g : ℝ → ℝ, g 0 = 0 → ∑ i, g (a i) = ∑ i, g (b i)) → ∀ i, ¬ a i < b i := by
    intro a b ha hb ha0 h i hi
    have h1 := h (fun v => if b i ≤ v then 1 else 0) (if_neg (not_le.2 ((ha0 i).trans_lt hi)))
    refine absurd h1 (ne_of_lt (Finset.sum_lt_sum (fun j _ => ?_) ⟨i, Finset.mem_univ _, ?_⟩))
    · rcases le_total j i with hj | hj
      · rw [if_pos (hb hj)]
        split_ifs <;> norm_num
      · rw [if_neg (not_le.2 ((ha hj).trans_lt hi))]
        split_ifs <;> norm_num
    · rw [if_neg (not_le.2 hi), if_pos le_rfl]
      norm_num
  ext i
  exact le_antisymm (not_lt.1 (key hb ha hb0 (fun g hg => (h g hg).symm) i)) (not_lt.1 (key ha hb ha0 h i))

/-- The square roots of the eigenvalues of `XᵀX` in descending order are the singular values, followed by zeros. -/
lemma eig_eq_svd (hr : r = min M N) {x : Vec (Fin M × Fin N)} {lam : Fin N → ℝ} (hlam : IsEigGram x lam) (hmono : Monotone lam) {u : Fin r → Vec (Fin M)} {s : Fin r → ℝ} {v : Fin r → Vec (Fin N)}
    (hx : IsSVD x u s v) (hs : Antitone s) (i : Fin N) : √(lam i.rev) = if h : (i : ℕ) < r then s ⟨i, h⟩ else 0 := by
  refine congrFun (antitone_eq_of_sums (a := fun i : Fin N => √(lam i.rev)) (b := fun i : Fin N => if h : (i : ℕ) < r then s ⟨i, h⟩ else 0) ?_ ?_ ?_ ?_ ?_) i
  · intro a b hab
    exact Real.sqrt_le_sqrt (hmono (Fin.rev_le_rev.2 hab))
  · intro a b hab
    have hab' : (a : ℕ) ≤ b := hab
    simp only
    by_cases hb : (b : ℕ) < r
    · rw [dif_pos hb, dif_pos (by omega)]
      exact hs (by simpa using hab)
    · rw [dif_neg hb]
      split_ifs
      · exact hx.nonneg _
      · exact le_rfl
  · intro i; positivity
  · intro i
    split_ifs
    · exact hx.nonneg _
    · exact le_rfl
  · intro g hg
    have h1 := svd_sum_eig (ρ := Fin r) (by simpa using hr) hlam hx g hg
    have h2 : ∑ i : Fin N, g (√(lam i.rev)) = ∑ i : Fin N, g (√(lam i)) := Equiv.sum_comp Fin.revPerm fun i => g (√(lam i))
    rw [h2, h1]
    rw [Fin.sum_univ_eq_sum_range (fun i : ℕ => g (if h : i < r then s ⟨i, h⟩ else 0)) N,
      ← Finset.sum_subset (Finset.range_subset_range.2 (by omega : r ≤ N)), ← Fin.sum_univ_eq_sum_range (fun i : ℕ => g (if h : i < r then s ⟨i, h⟩ else 0)) r]
    · exact Finset.sum_congr rfl fun k _ => by rw [dif_pos k.2]
    · intro i _ hi
      rw [dif_neg (by simpa using hi), hg]

lemma weighted_call_eq {svd : Vec (Fin M × Fin N) → SVD (Fin M) (Fin N) (Fin r)} {eig : Vec (Fin M × Fin N) → Fin N → ℝ} {sigma : List ℝ} {x : Vec (Fin M × Fin N)} (he : IsEigGram x (eig x))
    (hN : sigma.length = N) : (NuclearW svd eig sigma).call x = .ok (.num (∑ i : Fin N, sigma.getD i 0 * √(eig x i.rev))) := by
  have e1 : (fun k => √(if eig x k < 0 then 0 else eig x k)) = fun k => √(eig x k) := by
    ext k; rw [if_neg (not_lt.2 (eigGram_nonneg he k))]
  simp only [NuclearW, e1]
  rw [npBroadcast, if_pos (by simp [hN])]
  simp only [Bind.bind, Except.bind, Pure.pure, Except.pure]
  have e2 : List.zipWith (· * ·) sigma.reverse (List.ofFn fun k => √(eig x k)) = List.ofFn fun j : Fin N => sigma.getD (j.rev : Fin N) 0 * √(eig x j) := by
    refine List.ext_getElem (by simp [hN]) fun n h1 h2 => ?_
    have hn : n < N := by simpa using h2
    simp only [List.getElem_zipWith, List.getElem_reverse, List.getElem_ofFn]
    rw [getD_of_lt (by simp [Fin.rev]; omega)]
    simp only [Fin.val_rev, hN]
    congr 2
    omega
  rw [e2, List.sum_ofFn, ← Equiv.sum_comp Fin.revPerm]
  simp

/-- C91: the value is `Σ σ_i λ_i` if there is one weight per column. -/
theorem C91_value_partial (hr : r = min M N) (svd : Vec (Fin M × Fin N) → SVD (Fin M) (Fin N) (Fin r)) {eig : Vec (Fin M × Fin N) → Fin N → ℝ} (heig : ∀ x, IsEigGram x (eig x) ∧ Monotone (eig x))
    {sigma : List ℝ} (hN : sigma.length = N) {f : Vec (Fin M × Fin N) → ℝ} (hf : IsWeightedNuc (fun k : Fin r => sigma.getD k 0) f) : EvaluatesNum (NuclearW svd eig sigma) f := by
  intro x
  obtain ⟨u, s, v, hx, hs⟩ := exists_sorted_svd (r := r) (by simpa using hr) x
  rw [weighted_call_eq (heig x).1 hN, hf x u s v hx hs]
  simp only [eig_eq_svd hr (heig x).1 (heig x).2 hx hs]
  rw [Fin.sum_univ_eq_sum_range (fun i : ℕ => sigma.getD i 0 * (if h : i < r then s ⟨i, h⟩ else 0)) N,
    ← Finset.sum_subset (Finset.range_subset_range.2 (by omega : r ≤ N)), ← Fin.sum_univ_eq_sum_range (fun i : ℕ => sigma.getD i 0 * (if h : i < r then s ⟨i, h⟩ else 0)) r]
  · refine congrArg _ (congrArg _ (Finset.sum_congr rfl fun k _ => by rw [dif_pos k.2]))
  · intro i _ hi
    rw [dif_neg (by simpa using hi), mul_zero]

/-- C91: with one weight per singular value, as documented, the value of a matrix with more columns than rows cannot be computed. -/
theorem C91_value_wide_refuted (hM : 1 < M) (hMN : M < N) (svd : Vec (Fin M × Fin N) → SVD (Fin M) (Fin N) (Fin r)) (eig : Vec (Fin M × Fin N) → Fin N → ℝ) {sigma : List ℝ} (hl : sigma.length = M)
    (x : Vec (Fin M × Fin N)) : (NuclearW svd eig sigma).call x = .error .valueError := by
  simp only [NuclearW]
  rw [npBroadcast, if_neg (by simp; omega), if_neg (by simp; omega), if_neg (by simp; omega)]
  rfl

/-- C91: for matrices with a single column the value is the sum of all weights times the only singular value, so it is wrong for every matrix that is not zero, unless the superfluous weights sum to zero. -/
theorem C91_value_column_refuted (hM : 0 < M) (svd : Vec (Fin M × Fin 1) → SVD (Fin M) (Fin 1) (Fin 1)) {eig : Vec (Fin M × Fin 1) → Fin 1 → ℝ} (heig : ∀ x, IsEigGram x (eig x)) {a : ℝ}
    {rest : List ℝ} (hrest : rest.sum ≠ 0) {f : Vec (Fin M × Fin 1) → ℝ} (hf : IsWeightedNuc (fun k : Fin 1 => (a :: rest).getD k 0) f) {x : Vec (Fin M × Fin 1)} (hx0 : x ≠ 0) :
    (NuclearW svd eig (a :: rest)).call x = .ok (.num (f x + rest.sum * ‖x‖)) ∧ 0 < ‖x‖ := by
  obtain ⟨u, s, v, hx, hs⟩ := exists_sorted_svd (ι := Fin M) (κ := Fin 1) (r := 1) (by simp; omega) x
  have h1 := eig_eq_svd (r := 1) (by omega) (heig x) (fun a b _ => by rw [Subsingleton.elim a b]) hx hs 0
  have h2 : ‖x‖ = s 0 := by
    have := norm_recon hx.left hx.right s
    rw [← hx.eq_recon] at this
    rw [this, EuclideanSpace.norm_eq]
    simp [Real.sqrt_sq_eq_abs, abs_of_nonneg (hx.nonneg 0)]
  have h3 : √(eig x 0) = s 0 := by simpa using h1
  refine ⟨?_, norm_pos_iff.2 hx0⟩
  have e1 : (fun k => √(if eig x k < 0 then 0 else eig x k)) = fun k => √(eig x k) := by
    ext k; rw [if_neg (not_lt.2 (eigGram_nonneg (heig x) k))]
  simp only [NuclearW, e1]
  have hne : rest ≠ [] := by rintro rfl; simp at hrest
  have hlen : 0 < rest.length := List.length_pos_iff.2 hne
  rw [npBroadcast, if_neg (by simp; omega), if_neg (by simp; omega), if_pos (by simp)]
  simp only [Bind.bind, Except.bind, Pure.pure, Except.pure]
  congr 2
  have e2 : (List.ofFn fun k => √(eig x k)).getD 0 0 = s 0 := by simp [h3]
  rw [e2, List.sum_map_mul_right]
  simp only [List.map_id', List.sum_reverse, List.sum_cons]
  rw [hf x u s v hx hs, h2]
  simp
  ring

/-- C91: fewer weights than singular values (but more than one) are rejected by `prox`. -/
theorem C91_prox_short (svd : Vec (Fin M × Fin N) → SVD (Fin M) (Fin N) (Fin r)) (eig : Vec (Fin M × Fin N) → Fin N → ℝ) {sigma : List ℝ} (h1 : 1 < sigma.length) (hl : sigma.length < r)
    (x : Vec (Fin M × Fin N)) {τ : ℝ} (hτ : 0 < τ) : (NuclearW svd eig sigma).prox x τ = .error .valueError := by
  simp only [NuclearW, ProxOp.prox, checkTau_pos hτ, if_pos h1]
  rw [npBroadcast, if_neg (by simp; omega), if_neg (by simp; omega), if_neg (by simp; omega)]
  rfl

/-- C91: an array with one weight is the same as a number. -/
theorem C91_single_weight (svd : Vec (Fin M × Fin N) → SVD (Fin M) (Fin N) (Fin r)) (eig : Vec (Fin M × Fin N) → Fin N → ℝ) (σ : ℝ) (x : Vec (Fin M × Fin N)) (τ : ℝ) :
    (NuclearW svd eig [σ]).prox x τ = (Nuclear svd eig σ).prox x τ ∧ (NuclearW svd eig [σ]).call x = (Nuclear svd eig σ).call x := by
  constructor
  · simp only [NuclearW, Nuclear, ProxOp.prox]
    congr 1
    rw [if_neg (by simp)]
    have e : npBroadcast softScalar (List.ofFn (svd x).s) ([σ].map (τ * ·)) = .ok (List.ofFn fun k => softScalar ((svd x).s k) (τ * σ)) := by
      unfold npBroadcast
      by_cases h : (List.ofFn (svd x).s).length = 1
      · have hr : r = 1 := by simpa using h
        subst hr
        simp
      · rw [if_neg (by simpa using h), if_neg h, if_pos (by simp), List.map_ofFn]
        rfl
    rw [e]
    simp only [Bind.bind, Except.bind]
    rw [if_pos (by simp)]
    simp only [Pure.pure, Except.pure]
    congr 2
    ext k
    rw [getD_of_lt (by simp)]
    simp
  · simp only [NuclearW, Nuclear, List.reverse_singleton]
    unfold npBroadcast
    by_cases h : N = 1
    · subst h
      simp [Bind.bind, Except.bind, Pure.pure, Except.pure]
    · rw [if_neg (by simpa using fun h' => h h'.symm), if_pos (by simp)]
      simp only [Bind.bind, Except.bind, Pure.pure, Except.pure, List.map_ofFn, List.sum_ofFn]
      rfl

/-- C01 for the weighted nuclear norm. -/
theorem C01_weighted_nuclear (svd : Vec (Fin M × Fin N) → SVD (Fin M) (Fin N) (Fin r)) (eig : Vec (Fin M × Fin N) → Fin N → ℝ) (sigma : List ℝ) : RejectsBadTau (NuclearW svd eig sigma) := by
  refine rejects_of_guarded _ ?_ ?_
  · rintro m ⟨⟩ x τ hτ; exact checkTau_nonpos hτ _
  · rintro m ⟨⟩

/-- There are decompositions as assumed, for all sizes. -/
theorem exists_svd_eig_sorted (hr : r = min M N) : ∃ (svd : Vec (Fin M × Fin N) → SVD (Fin M) (Fin N) (Fin r)) (eig : Vec (Fin M × Fin N) → Fin N → ℝ),
    SvdDescending svd ∧ ∀ x, IsEigGram x (eig x) ∧ Monotone (eig x) := by
  choose u s v h hs using fun x : Vec (Fin M × Fin N) => exists_sorted_svd (r := r) (by simpa using hr) x
  choose e he using fun x : Vec (Fin M × Fin N) => exists_eigGram x
  refine ⟨fun x => ⟨u x, s x, v x⟩, fun x => e x ∘ Tuple.sort (e x), ⟨h, hs⟩, fun x => ⟨?_, Tuple.monotone_sort _⟩⟩
  obtain ⟨q, hq, h2⟩ := he x
  exact ⟨q ∘ Tuple.sort (e x), hq.comp _ (Equiv.injective _), fun k w => h2 _ w⟩

/-- The hypotheses of the theorems on `prox` and on its failure are met by 3×2 matrices with weights (1, 2) and (2, 1). -/
example : 2 = min 3 2 ∧ 1 < ([1, 2] : List ℝ).length ∧ ([1, 2] : List ℝ).SortedLE ∧ ([2, 1] : List ℝ).getD 1 0 < ([2, 1] : List ℝ).getD 0 0 := by
  refine ⟨rfl, by simp, ?_, by norm_num⟩
  rw [List.sortedLE_iff_pairwise]
  simp

end Verif
