import Verif.Props.Rounded2
import Verif.Props.Sensitivity

/-!
# C114: rounded ADMM without a bound on the computed run

`C114_admm_error` supposes that the computed run stays within a given norm.  Here the bound is on the exact run only: as
long as the accumulated error is small against the size of the exact run, the computed run cannot leave twice its ball.
-/

namespace Verif

variable {ι : Type} [Fintype ι]
variable {rnd : ℝ → ℝ} {u : ℝ}

/-- One iteration of the rounded ADMM next to one iteration of the exact one. -/
theorem admmR_step_within (hr : Rounding rnd u) {P Q Pr Qr : Vec ι → Vec ι} (fP : Firm P) (fQ : Firm Q) {δ B ε D : ℝ}
    (hPe : ∀ v, ‖v‖ ≤ 8 * B → ‖Pr v - P v‖ ≤ δ) (hQe : ∀ v, ‖v‖ ≤ 8 * B → ‖Qr v - Q v‖ ≤ δ) (hB : 0 ≤ B) (hδ : 0 ≤ δ)
    (hε : ε = 4 * δ + 40 * u * B) {s s' t t' : SplitState (Vec ι)}
    (hs : s'.x = Pr (subR rnd s.z s.u) ∧ s'.z = Qr (addR rnd s'.x s.u) ∧ s'.u = subR rnd (addR rnd s.u s'.x) s'.z)
    (ht : t'.x = P (t.z - t.u) ∧ t'.z = Q (t'.x + t.u) ∧ t'.u = t.u + t'.x - t'.z)
    (bz : ‖s.z‖ ≤ 2 * B) (bu : ‖s.u‖ ≤ 2 * B) (dz : ‖s.z - t.z‖ ≤ D) (du : ‖s.u - t.u‖ ≤ 2 * D) (hD : 10 * (D + ε) ≤ B)
    (hD0 : 0 ≤ D) (ex : ‖t'.x‖ ≤ B) (ez : ‖t'.z‖ ≤ B) (eu : ‖t'.u‖ ≤ B) : ‖s'.x‖ ≤ 2 * B ∧ ‖s'.z‖ ≤ 2 * B ∧ ‖s'.u‖ ≤ 2 * B := by
  have hu := hr.nonneg_u
  have hul := hr.lt
  have huB : 0 ≤ u * B := mul_nonneg hu hB
  have huB1 : u * B ≤ B := mul_le_of_le_one_left hB (by linarith)
  rw [hε] at hD
  have hadd : ∀ a b : Vec ι, ‖addR rnd a b - (a + b)‖ ≤ u * ‖a + b‖ := fun a b => norm_rnd_sub hr (a + b)
  have hsub : ∀ a b : Vec ι, ‖subR rnd a b - (a - b)‖ ≤ u * ‖a - b‖ := fun a b => norm_rnd_sub hr (a - b)
  have hcomm : ∀ a b : Vec ι, addR rnd a b = addR rnd b a := fun a b => by
    ext i; simp [addR, add_comm]
  obtain ⟨hx, hz, hw⟩ := hs
  obtain ⟨kx, kz, kw⟩ := ht
  -- the point handed to the first operator
  generalize ha : subR rnd s.z s.u = a at hx
  have n1 := norm_sub_le s.z s.u
  have a1 : ‖a - (s.z - s.u)‖ ≤ 4 * (u * B) := by
    rw [← ha]
    exact (hsub _ _).trans ((mul_le_mul_of_nonneg_left (n1.trans (by linarith)) hu).trans (by linarith : u * (4 * B) ≤ 4 * (u * B)))
  have a2 : ‖a‖ ≤ 8 * B := by
    have h5 := norm_sub_norm_le a (s.z - s.u)
    linarith
  have a3 : ‖a - (t.z - t.u)‖ ≤ 4 * (u * B) + 3 * D := by
    have e : a - (t.z - t.u) = (a - (s.z - s.u)) + (s.z - t.z) - (s.u - t.u) := by abel
    rw [e]
    refine (norm_sub_le _ _).trans ((add_le_add (norm_add_le _ _) le_rfl).trans ?_)
    linarith
  have dx : ‖s'.x - t'.x‖ ≤ δ + 4 * (u * B) + 3 * D := by
    have h1 := hPe a a2
    have h2 := (fP.nonexp a (t.z - t.u)).trans a3
    have h3 := norm_sub_le_norm_sub_add_norm_sub (Pr a) (P a) (P (t.z - t.u))
    rw [hx, kx]
    linarith
  have bx : ‖s'.x‖ ≤ 2 * B := by
    have h := norm_sub_norm_le s'.x t'.x
    linarith
  -- the point handed to the second operator
  generalize hb : addR rnd s'.x s.u = b at hz
  have n2 := norm_add_le s'.x s.u
  have b1 : ‖b - (s'.x + s.u)‖ ≤ 4 * (u * B) := by
    rw [← hb]
    exact (hadd _ _).trans ((mul_le_mul_of_nonneg_left (n2.trans (by linarith)) hu).trans (by linarith : u * (4 * B) ≤ 4 * (u * B)))
  have b2 : ‖b‖ ≤ 8 * B := by
    have h5 := norm_sub_norm_le b (s'.x + s.u)
    linarith
  have b3 : ‖b - (t'.x + t.u)‖ ≤ δ + 8 * (u * B) + 5 * D := by
    have e : b - (t'.x + t.u) = (b - (s'.x + s.u)) + (s'.x - t'.x) + (s.u - t.u) := by abel
    rw [e]
    refine (norm_add₃_le).trans ?_
    linarith
  have dz' : ‖s'.z - t'.z‖ ≤ 2 * δ + 8 * (u * B) + 5 * D := by
    have h1 := hQe b b2
    have h2 := (fQ.nonexp b (t'.x + t.u)).trans b3
    have h3 := norm_sub_le_norm_sub_add_norm_sub (Qr b) (Q b) (Q (t'.x + t.u))
    rw [hz, kz]
    linarith
  have bz' : ‖s'.z‖ ≤ 2 * B := by
    have h := norm_sub_norm_le s'.z t'.z
    linarith
  have u1 : ‖s'.u - (b - s'.z)‖ ≤ 10 * (u * B) := by
    rw [hw, hcomm, hb]
    exact (hsub _ _).trans ((mul_le_mul_of_nonneg_left ((norm_sub_le _ _).trans (by linarith : ‖b‖ + ‖s'.z‖ ≤ 10 * B)) hu).trans
      (by linarith))
  have du' : ‖s'.u - t'.u‖ ≤ 3 * δ + 26 * (u * B) + 10 * D := by
    have e : s'.u - t'.u = (s'.u - (b - s'.z)) + (b - (t'.x + t.u)) - (s'.z - t'.z) := by rw [kw]; abel
    rw [e]
    refine (norm_sub_le _ _).trans ((add_le_add (norm_add_le _ _) le_rfl).trans ?_)
    linarith
  refine ⟨bx, bz', ?_⟩
  have h := norm_sub_norm_le s'.u t'.u
  linarith

/-- **C114** The rounded ADMM (`gfirst=False`) without a bound on the computed run.  The exact run stays within norm `B`;
the rounded operators are within `δ` of the exact ones on the points of norm at most `8 B`.  For as many iterations `n` as
`10 n (4 δ + 40 u B) ≤ B` allows, the computed run stays within `2 B`, both returned vectors are within
`n (4 δ + 40 u B)` of the exact ones, and the multiplier is within twice that. -/
theorem C114_admm_error_selfbounded (hr : Rounding rnd u) {F G : XFun (Vec ι)} (hF : F.Convex) (hG : G.Convex)
    {f g fR gR : ProxOp (Vec ι)} (hf : ProxExact f F) (hg : ProxExact g G) {τ δ B : ℝ} (hτ : 0 < τ)
    (hfR : ∀ v, ∃ y, fR.prox v τ = .ok y ∧ (‖v‖ ≤ 8 * B → ∀ p, f.prox v τ = .ok p → ‖y - p‖ ≤ δ))
    (hgR : ∀ v, ∃ y, gR.prox v τ = .ok y ∧ (‖v‖ ≤ 8 * B → ∀ p, g.prox v τ = .ok p → ‖y - p‖ ≤ δ))
    (x0 z0 : Option (Vec ι)) (hinit : ∃ xz, x0z0Init x0 z0 = .ok xz) (n : ℕ)
    (hB : ∀ k, k ≤ n → ∀ e, ADMM f g x0 z0 τ k false = .ok e → ‖e.x‖ ≤ B ∧ ‖e.z‖ ≤ B ∧ ‖e.u‖ ≤ B)
    (hn : 10 * (n * (4 * δ + 40 * u * B)) ≤ B) :
    ∃ s e, ADMMR rnd fR gR x0 z0 τ n false = .ok s ∧ ADMM f g x0 z0 τ n false = .ok e ∧
      ‖s.x - e.x‖ ≤ n * (4 * δ + 40 * u * B) ∧ ‖s.z - e.z‖ ≤ n * (4 * δ + 40 * u * B) ∧
      ‖s.u - e.u‖ ≤ 2 * n * (4 * δ + 40 * u * B) ∧ ‖s.x‖ ≤ 2 * B ∧ ‖s.z‖ ≤ 2 * B ∧ ‖s.u‖ ≤ 2 * B := by
  have hfR' : ∀ v, ∃ y, fR.prox v τ = .ok y ∧ (‖v‖ ≤ 4 * (2 * B) → ∀ p, f.prox v τ = .ok p → ‖y - p‖ ≤ δ) := fun v => by
    obtain ⟨y, h1, h2⟩ := hfR v
    exact ⟨y, h1, fun hv => h2 (by linarith)⟩
  have hgR' : ∀ v, ∃ y, gR.prox v τ = .ok y ∧ (‖v‖ ≤ 4 * (2 * B) → ∀ p, g.prox v τ = .ok p → ‖y - p‖ ≤ δ) := fun v => by
    obtain ⟨y, h1, h2⟩ := hgR v
    exact ⟨y, h1, fun hv => h2 (by linarith)⟩
  have hinit' := hinit
  obtain ⟨⟨x, z⟩, hi⟩ := hinit
  obtain ⟨P, hP, hP'⟩ := proxExact_map hf hτ
  obtain ⟨Q, hQ, hQ'⟩ := proxExact_map hg hτ
  have fP := firm_prox hF hτ hP'
  have fQ := firm_prox hG hτ hQ'
  have cfR := hfR
  have cgR := hgR
  choose Pr hPr hPr' using cfR
  choose Qr hQr hQr' using cgR
  have hPe : ∀ v, ‖v‖ ≤ 8 * B → ‖Pr v - P v‖ ≤ δ := fun v hv => hPr' v hv _ (hP v)
  have hQe : ∀ v, ‖v‖ ≤ 8 * B → ‖Qr v - Q v‖ ≤ δ := fun v hv => hQr' v hv _ (hQ v)
  obtain ⟨S, s1, s2, s3, hS, hSn⟩ := admmR_traj (rnd := rnd) hPr hQr x0 z0 x z hi
  obtain ⟨T, t1, t2, t3, tu, -, tx, -, hTn⟩ := admm_traj hP hQ false x0 z0 x z hi
  replace tx := tx rfl
  have hT : ∀ k, k ≤ n → ‖(T k).x‖ ≤ B ∧ ‖(T k).z‖ ≤ B ∧ ‖(T k).u‖ ≤ B := fun k hk => hB k hk _ (hTn k)
  have hB0 : 0 ≤ B := (norm_nonneg _).trans (hT 0 (Nat.zero_le n)).1
  have hδ : 0 ≤ δ := (norm_nonneg _).trans (hPe 0 (by simpa using hB0))
  have hu := hr.nonneg_u
  have hε0 : 0 ≤ 4 * δ + 40 * u * B := by positivity
  have hbd : ∀ k, k ≤ n → ∀ j, j ≤ k → ‖(S j).x‖ ≤ 2 * B ∧ ‖(S j).z‖ ≤ 2 * B ∧ ‖(S j).u‖ ≤ 2 * B := by
    intro k
    induction k with
    | zero =>
      intro _ j hj
      obtain rfl : j = 0 := by omega
      have h := hT 0 (Nat.zero_le n)
      rw [t1, t2, t3] at h
      rw [s1, s2, s3]
      exact ⟨by linarith [h.1], by linarith [h.2.1], by rw [norm_zero]; linarith⟩
    | succ k ih =>
      intro hk j hj
      have ih := ih (by omega)
      rcases Nat.lt_or_ge j (k + 1) with h | h
      · exact ih j (by omega)
      obtain rfl : j = k + 1 := by omega
      obtain ⟨s, e, e1, e2, -, e4, e5⟩ := C114_admm_error hr hF hG hf hg hτ hfR' hgR' x0 z0 hinit' k fun m hm s hs => by
        rw [hSn m] at hs
        obtain rfl : S m = s := by simpa using hs
        exact ih m hm
      rw [hSn k] at e1
      rw [hTn k] at e2
      obtain rfl : S k = s := by simpa using e1
      obtain rfl : T k = e := by simpa using e2
      have hT' := hT (k + 1) hk
      have hk' : ((k : ℝ) + 1) * (4 * δ + 40 * u * B) ≤ n * (4 * δ + 40 * u * B) :=
        mul_le_mul_of_nonneg_right (by exact_mod_cast hk) hε0
      refine admmR_step_within hr fP fQ (D := k * (4 * δ + 40 * u * B)) hPe hQe hB0 hδ rfl (hS k)
        ⟨(tx k).1, (tx k).2, tu k⟩ (ih k le_rfl).2.1 (ih k le_rfl).2.2 ?_ ?_ ?_ (by positivity) hT'.1 hT'.2.1 hT'.2.2
      · refine e4.trans (le_of_eq ?_); ring
      · refine e5.trans (le_of_eq ?_); ring
      · linarith
  obtain ⟨s, e, e1, e2, e3, e4, e5⟩ := C114_admm_error hr hF hG hf hg hτ hfR' hgR' x0 z0 hinit' n fun m hm s hs => by
    rw [hSn m] at hs
    obtain rfl : S m = s := by simpa using hs
    exact hbd n le_rfl m hm
  have hs := hbd n le_rfl n le_rfl
  have e1' := e1
  rw [hSn n] at e1'
  obtain rfl : S n = s := by simpa using e1'
  refine ⟨_, e, e1, e2, e3.trans (le_of_eq ?_), e4.trans (le_of_eq ?_), e5.trans (le_of_eq ?_), hs⟩ <;> ring

/-- **C114** ADMM with `Box` and `L1` in rounded arithmetic, when only the exact run is known to stay within norm `B`: for
as many iterations as `10 n u (72 B + 4 tau sigma sqrt d) ≤ B` allows, the computed run stays within `2 B` and both
returned vectors are within `n u (72 B + 4 tau sigma sqrt d)` of the exact ones. -/
theorem C114_admm_box_l1_selfbounded (hr : Rounding rnd u) (val : Vec ι → Py CallVal) {σ τ B : ℝ} (hσ : 0 ≤ σ) (hτ : 0 < τ)
    (lower upper : ι → ℝ) (hle : ∀ i, lower i ≤ upper i) (x0 z0 : Option (Vec ι)) (hinit : ∃ xz, x0z0Init x0 z0 = .ok xz) (n : ℕ)
    (hB : ∀ k, k ≤ n → ∀ e, ADMM (Box (fun i => some (lower i)) fun i => some (upper i)) (L1 σ none) x0 z0 τ k false = .ok e →
      ‖e.x‖ ≤ B ∧ ‖e.z‖ ≤ B ∧ ‖e.u‖ ≤ B)
    (hn : 10 * (n * (u * (72 * B + 4 * (τ * σ * √(Fintype.card ι))))) ≤ B) :
    ∃ s e, ADMMR rnd (Box (fun i => some (lower i)) fun i => some (upper i)) (L1R rnd val σ none) x0 z0 τ n false = .ok s ∧
      ADMM (Box (fun i => some (lower i)) fun i => some (upper i)) (L1 σ none) x0 z0 τ n false = .ok e ∧
      ‖s.x - e.x‖ ≤ n * (u * (72 * B + 4 * (τ * σ * √(Fintype.card ι)))) ∧
      ‖s.z - e.z‖ ≤ n * (u * (72 * B + 4 * (τ * σ * √(Fintype.card ι)))) ∧ ‖s.x‖ ≤ 2 * B ∧ ‖s.z‖ ≤ 2 * B ∧ ‖s.u‖ ≤ 2 * B := by
  have hu := hr.nonneg_u
  have hB0 : 0 ≤ B := by
    obtain ⟨⟨x, z⟩, hi⟩ := hinit
    refine (norm_nonneg _).trans (hB 0 (Nat.zero_le n) ⟨x, z, 0, []⟩ ?_).1
    simp [ADMM, hi, Bind.bind, Except.bind, forRange]
  have hT : 0 ≤ τ * σ * √(Fintype.card ι) := by positivity
  have cF := indicator_convex (boxSet_convex (fun i => some (lower i)) fun i => some (upper i))
  have cG := l1Sigma_convex (ι := ι) hσ
  have pF := box_proxExact (fun i => some (lower i)) (fun i => some (upper i)) fun i a b ha hb => by
    obtain rfl : lower i = a := by simpa using ha
    obtain rfl : upper i = b := by simpa using hb
    exact hle i
  have pG : ProxExact (L1 σ none) (XFun.ofReal fun x : Vec ι => σ * ∑ i, |x i - (0 : Vec ι) i|) := fun x τ hτ => by
    obtain ⟨p, h1, h2⟩ := C11_l1_prox σ hσ none x τ hτ
    exact ⟨p, h1, h2.1⟩
  have e : ∀ v : Vec ι, (Box (fun i => some (lower i)) fun i => some (upper i)).prox v τ =
      .ok (boxProj (fun i => some (lower i)) (fun i => some (upper i)) v) := fun v => by
    simp [ProxOp.prox, Box, checkTau, not_le.mpr hτ]
  have eF : ∀ v : Vec ι, ∃ y, (Box (fun i => some (lower i)) fun i => some (upper i)).prox v τ = .ok y ∧
      (‖v‖ ≤ 8 * B → ∀ p, (Box (fun i => some (lower i)) fun i => some (upper i)).prox v τ = .ok p →
        ‖y - p‖ ≤ u * (8 * B + τ * σ * √(Fintype.card ι))) := fun v =>
    ⟨_, e v, fun _ p hp => by
      rw [e v] at hp
      obtain rfl : boxProj (fun i => some (lower i)) (fun i => some (upper i)) v = p := by simpa using hp
      rw [sub_self, norm_zero]
      positivity⟩
  have eG : ∀ v : Vec ι, ∃ y, (L1R rnd val σ none).prox v τ = .ok y ∧
      (‖v‖ ≤ 8 * B → ∀ p, (L1 σ none).prox v τ = .ok p → ‖y - p‖ ≤ u * (8 * B + τ * σ * √(Fintype.card ι))) := fun v => by
    obtain ⟨y, hy, hb⟩ := L1R_norm_err hr val hσ hτ v
    exact ⟨y, hy, fun hv p hp => (hb p hp).trans (mul_le_mul_of_nonneg_left (by linarith) hu)⟩
  have ee : 4 * (u * (8 * B + τ * σ * √(Fintype.card ι))) + 40 * u * B = u * (72 * B + 4 * (τ * σ * √(Fintype.card ι))) := by ring
  obtain ⟨s, e, h1, h2, h3, h4, -, h6⟩ := C114_admm_error_selfbounded hr cF cG pF pG hτ eF eG x0 z0 hinit n hB (by rw [ee]; exact hn)
  rw [ee] at h3 h4
  exact ⟨s, e, h1, h2, h3, h4, h6⟩

/-- Entries of size at most `c`. -/
theorem norm_le_of_entries {v : Vec ι} {c : ℝ} (hc : 0 ≤ c) (h : ∀ i, |v i| ≤ c) : ‖v‖ ≤ c * √(Fintype.card ι) := by
  rw [EuclideanSpace.norm_eq]
  have h1 : ∑ i, ‖v i‖ ^ 2 ≤ c ^ 2 * Fintype.card ι := by
    have := Finset.sum_le_sum fun i (_ : i ∈ Finset.univ) => pow_le_pow_left₀ (norm_nonneg (v i)) (h i) 2
    simpa [Finset.sum_const, mul_comm] using this
  refine (Real.sqrt_le_sqrt h1).trans (le_of_eq ?_)
  rw [Real.sqrt_mul (sq_nonneg _), Real.sqrt_sq hc]

/-- **C114** The exact ADMM with a `Box` whose bounds are at most `m` in size and `L1` stays, for every number of iterations,
within the norm `‖x‖ + ‖z‖ + (m + tau sigma) sqrt d`, `x` and `z` the starting vectors and `d` the number of entries. -/
theorem C114_admm_box_l1_exact_bounded {σ τ m : ℝ} (hσ : 0 ≤ σ) (hτ : 0 < τ) (lower upper : ι → ℝ) (hle : ∀ i, lower i ≤ upper i)
    (hm0 : 0 ≤ m) (hm : ∀ i, -m ≤ lower i ∧ upper i ≤ m) (x0 z0 : Option (Vec ι)) (x z : Vec ι)
    (hinit : x0z0Init x0 z0 = .ok (x, z)) (n : ℕ) (e : SplitState (Vec ι))
    (he : ADMM (Box (fun i => some (lower i)) fun i => some (upper i)) (L1 σ none) x0 z0 τ n false = .ok e) :
    ‖e.x‖ ≤ ‖x‖ + ‖z‖ + (m + τ * σ) * √(Fintype.card ι) ∧ ‖e.z‖ ≤ ‖x‖ + ‖z‖ + (m + τ * σ) * √(Fintype.card ι) ∧
      ‖e.u‖ ≤ ‖x‖ + ‖z‖ + (m + τ * σ) * √(Fintype.card ι) := by
  have hT : 0 ≤ τ * σ := mul_nonneg hτ.le hσ
  obtain ⟨T, t1, t2, t3, tu, -, tx, -, hTn⟩ := admm_traj (f := Box (fun i => some (lower i)) fun i => some (upper i)) (g := L1 σ none)
    (τ := τ) (Pf := boxProj (fun i => some (lower i)) fun i => some (upper i)) (Pg := fun v => softthreshold v fun _ => τ * σ)
    (fun v => by simp [ProxOp.prox, Box, checkTau, not_le.mpr hτ]) (fun v => by simp [ProxOp.prox, L1, checkTau, not_le.mpr hτ])
    false x0 z0 x z hinit
  replace tx := tx rfl
  rw [hTn n] at he
  obtain rfl : T n = e := by simpa using he
  have hx0 := norm_nonneg x
  have hz0 := norm_nonneg z
  have hd : 0 ≤ √(Fintype.card ι : ℝ) := Real.sqrt_nonneg _
  have hmd := mul_nonneg hm0 hd
  have hTd := mul_nonneg hT hd
  rw [add_mul]
  have hu : ∀ k, ‖(T k).u‖ ≤ τ * σ * √(Fintype.card ι) := by
    rintro (_ | k)
    · rw [t3, norm_zero]; exact hTd
    · refine norm_le_of_entries hT fun i => ?_
      have h := softScalar_thresh (((T (k + 1)).x + (T k).u) i) 0 (τ * σ)
      have h0 : softScalar (((T (k + 1)).x + (T k).u) i) 0 = ((T (k + 1)).x + (T k).u) i := by
        rw [soft_eq_clip le_rfl]
        have : max (-0) (min (((T (k + 1)).x + (T k).u) i) 0) = 0 := by
          rw [neg_zero]; exact max_eq_left (min_le_right _ _)
        rw [this, sub_zero]
      rw [h0, zero_sub, abs_neg, abs_of_nonneg hT] at h
      rw [tu k, (tx k).2, add_comm (T k).u]
      exact h
  rcases n with _ | k
  · rw [t1, t2, t3, norm_zero]
    exact ⟨by linarith, by linarith, by linarith⟩
  have hx : ‖(T (k + 1)).x‖ ≤ m * √(Fintype.card ι) := by
    refine norm_le_of_entries hm0 fun i => ?_
    have hd : boxClip (some (lower i)) (some (upper i)) (((T k).z - (T k).u) i) = min (max (((T k).z - (T k).u) i) (lower i)) (upper i) := rfl
    rw [(tx k).1]
    simp only [boxProj, hd]
    exact abs_le.mpr ⟨(hm i).1.trans (le_min (le_max_right _ _) (hle i)), (min_le_right _ _).trans (hm i).2⟩
  have hz : ‖(T (k + 1)).z‖ ≤ m * √(Fintype.card ι) + τ * σ * √(Fintype.card ι) := by
    have h1 : ‖(T (k + 1)).z‖ ≤ ‖(T (k + 1)).x + (T k).u‖ := by
      rw [(tx k).2, EuclideanSpace.norm_eq, EuclideanSpace.norm_eq]
      exact Real.sqrt_le_sqrt (Finset.sum_le_sum fun i _ => pow_le_pow_left₀ (norm_nonneg _) (softScalar_abs_le hT) 2)
    linarith [norm_add_le (T (k + 1)).x (T k).u, hu k]
  exact ⟨by linarith, by linarith, by linarith [hu (k + 1)]⟩

/-- **C114** ADMM with a bounded `Box` and `L1` in rounded arithmetic, with nothing supposed of either run: for up to
`1 / (760 u)` iterations (more than 10^13 in double precision) the vectors returned after `n` iterations are within
`76 n u B` of the exact ones, `B = ‖x‖ + ‖z‖ + (m + tau sigma) sqrt d`, and the computed run stays within `2 B`. -/
theorem C114_admm_box_l1_unconditional (hr : Rounding rnd u) (val : Vec ι → Py CallVal) {σ τ m : ℝ} (hσ : 0 ≤ σ) (hτ : 0 < τ)
    (lower upper : ι → ℝ) (hle : ∀ i, lower i ≤ upper i) (hm0 : 0 ≤ m) (hm : ∀ i, -m ≤ lower i ∧ upper i ≤ m)
    (x0 z0 : Option (Vec ι)) (x z : Vec ι) (hinit : x0z0Init x0 z0 = .ok (x, z)) (n : ℕ) (hn : 760 * (n * u) ≤ 1) :
    ∃ s e, ADMMR rnd (Box (fun i => some (lower i)) fun i => some (upper i)) (L1R rnd val σ none) x0 z0 τ n false = .ok s ∧
      ADMM (Box (fun i => some (lower i)) fun i => some (upper i)) (L1 σ none) x0 z0 τ n false = .ok e ∧
      ‖s.x - e.x‖ ≤ 76 * (n * u) * (‖x‖ + ‖z‖ + (m + τ * σ) * √(Fintype.card ι)) ∧
      ‖s.z - e.z‖ ≤ 76 * (n * u) * (‖x‖ + ‖z‖ + (m + τ * σ) * √(Fintype.card ι)) ∧
      ‖s.x‖ ≤ 2 * (‖x‖ + ‖z‖ + (m + τ * σ) * √(Fintype.card ι)) ∧ ‖s.z‖ ≤ 2 * (‖x‖ + ‖z‖ + (m + τ * σ) * √(Fintype.card ι)) ∧
      ‖s.u‖ ≤ 2 * (‖x‖ + ‖z‖ + (m + τ * σ) * √(Fintype.card ι)) := by
  have hu := hr.nonneg_u
  have hT : 0 ≤ τ * σ := mul_nonneg hτ.le hσ
  have hd : 0 ≤ √(Fintype.card ι : ℝ) := Real.sqrt_nonneg _
  have hTB : τ * σ * √(Fintype.card ι) ≤ ‖x‖ + ‖z‖ + (m + τ * σ) * √(Fintype.card ι) := by
    rw [add_mul]
    linarith [norm_nonneg x, norm_nonneg z, mul_nonneg hm0 hd]
  have hB0 : 0 ≤ ‖x‖ + ‖z‖ + (m + τ * σ) * √(Fintype.card ι) := (mul_nonneg hT hd).trans hTB
  have hex := C114_admm_box_l1_exact_bounded hσ hτ lower upper hle hm0 hm x0 z0 x z hinit
  generalize ‖x‖ + ‖z‖ + (m + τ * σ) * √(Fintype.card ι) = B at *
  have hnu : 0 ≤ (n : ℝ) * u := by positivity
  have h1 : n * (u * (72 * B + 4 * (τ * σ * √(Fintype.card ι)))) ≤ 76 * (n * u) * B := by
    have := mul_le_mul_of_nonneg_left (by linarith : 72 * B + 4 * (τ * σ * √(Fintype.card ι)) ≤ 76 * B) hnu
    linarith
  have h2 : 760 * (n * u) * B ≤ 1 * B := mul_le_mul_of_nonneg_right hn hB0
  obtain ⟨s, e, e1, e2, e3, e4, e5⟩ := C114_admm_box_l1_selfbounded hr val (B := B) hσ hτ lower upper hle x0 z0 ⟨_, hinit⟩ n
    (fun k _ e he => hex k e he) (by linarith)
  exact ⟨s, e, e1, e2, e3.trans h1, e4.trans h1, e5⟩

/-- One iteration of the rounded ADMM next to one iteration of the exact one, `gfirst=True`. -/
theorem admmR_step_within_gfirst (hr : Rounding rnd u) {P Q Pr Qr : Vec ι → Vec ι} (fP : Firm P) (fQ : Firm Q) {δ B ε D : ℝ}
    (hPe : ∀ v, ‖v‖ ≤ 8 * B → ‖Pr v - P v‖ ≤ δ) (hQe : ∀ v, ‖v‖ ≤ 8 * B → ‖Qr v - Q v‖ ≤ δ) (hB : 0 ≤ B) (hδ : 0 ≤ δ)
    (hε : ε = 4 * δ + 44 * u * B) {s s' t t' : SplitState (Vec ι)}
    (hs : s'.z = Qr (addR rnd s.x s.u) ∧ s'.x = Pr (subR rnd s'.z s.u) ∧ s'.u = subR rnd (addR rnd s.u s'.x) s'.z)
    (ht : t'.z = Q (t.x + t.u) ∧ t'.x = P (t'.z - t.u) ∧ t'.u = t.u + t'.x - t'.z)
    (bx : ‖s.x‖ ≤ 2 * B) (bu : ‖s.u‖ ≤ 2 * B) (dx : ‖s.x - t.x‖ ≤ D) (du : ‖s.u - t.u‖ ≤ 2 * D) (hD : 10 * (D + ε) ≤ B)
    (hD0 : 0 ≤ D) (ex : ‖t'.x‖ ≤ B) (ez : ‖t'.z‖ ≤ B) (eu : ‖t'.u‖ ≤ B) : ‖s'.x‖ ≤ 2 * B ∧ ‖s'.z‖ ≤ 2 * B ∧ ‖s'.u‖ ≤ 2 * B := by
  have hu := hr.nonneg_u
  have hul := hr.lt
  have huB : 0 ≤ u * B := mul_nonneg hu hB
  have huB1 : u * B ≤ B := mul_le_of_le_one_left hB (by linarith)
  rw [hε] at hD
  have hadd : ∀ a b : Vec ι, ‖a‖ ≤ 2 * B → ‖b‖ ≤ 2 * B → ‖addR rnd a b - (a + b)‖ ≤ 4 * (u * B) ∧ ‖addR rnd a b‖ ≤ 8 * B := fun a b h1 h2 => by
    have h3 := norm_add_le a b
    have h4 : ‖addR rnd a b - (a + b)‖ ≤ u * ‖a + b‖ := norm_rnd_sub hr (a + b)
    have h5 := mul_le_mul_of_nonneg_left (show ‖a + b‖ ≤ 4 * B by linarith) hu
    have h6 := norm_sub_norm_le (addR rnd a b) (a + b)
    exact ⟨by linarith, by linarith⟩
  have hsub : ∀ a b : Vec ι, ‖a‖ ≤ 2 * B → ‖b‖ ≤ 2 * B → ‖subR rnd a b - (a - b)‖ ≤ 4 * (u * B) ∧ ‖subR rnd a b‖ ≤ 8 * B := fun a b h1 h2 => by
    have h3 := norm_sub_le a b
    have h4 : ‖subR rnd a b - (a - b)‖ ≤ u * ‖a - b‖ := norm_rnd_sub hr (a - b)
    have h5 := mul_le_mul_of_nonneg_left (show ‖a - b‖ ≤ 4 * B by linarith) hu
    have h6 := norm_sub_norm_le (subR rnd a b) (a - b)
    exact ⟨by linarith, by linarith⟩
  obtain ⟨hz, hx, hw⟩ := hs
  obtain ⟨kz, kx, kw⟩ := ht
  -- the point handed to the first operator
  obtain ⟨c1, c2⟩ := hadd s.x s.u bx bu
  generalize addR rnd s.x s.u = c at hz c1 c2
  have c3 : ‖c - (t.x + t.u)‖ ≤ 4 * (u * B) + 3 * D := by
    have e : c - (t.x + t.u) = (c - (s.x + s.u)) + (s.x - t.x) + (s.u - t.u) := by abel
    rw [e]
    refine (norm_add₃_le).trans ?_
    linarith
  have dz : ‖s'.z - t'.z‖ ≤ δ + 4 * (u * B) + 3 * D := by
    have h1 := hQe c c2
    have h2 := (fQ.nonexp c (t.x + t.u)).trans c3
    have h3 := norm_sub_le_norm_sub_add_norm_sub (Qr c) (Q c) (Q (t.x + t.u))
    rw [hz, kz]
    linarith
  have bz : ‖s'.z‖ ≤ 2 * B := by
    have h := norm_sub_norm_le s'.z t'.z
    linarith
  -- the point handed to the second operator
  obtain ⟨a1, a2⟩ := hsub s'.z s.u bz bu
  generalize subR rnd s'.z s.u = a at hx a1 a2
  have a3 : ‖a - (t'.z - t.u)‖ ≤ δ + 8 * (u * B) + 5 * D := by
    have e : a - (t'.z - t.u) = (a - (s'.z - s.u)) + (s'.z - t'.z) - (s.u - t.u) := by abel
    rw [e]
    refine (norm_sub_le _ _).trans ((add_le_add (norm_add_le _ _) le_rfl).trans ?_)
    linarith
  have dx' : ‖s'.x - t'.x‖ ≤ 2 * δ + 8 * (u * B) + 5 * D := by
    have h1 := hPe a a2
    have h2 := (fP.nonexp a (t'.z - t.u)).trans a3
    have h3 := norm_sub_le_norm_sub_add_norm_sub (Pr a) (P a) (P (t'.z - t.u))
    rw [hx, kx]
    linarith
  have bx' : ‖s'.x‖ ≤ 2 * B := by
    have h := norm_sub_norm_le s'.x t'.x
    linarith
  obtain ⟨b1, b2⟩ := hadd s.u s'.x bu bx'
  generalize addR rnd s.u s'.x = b at hw b1 b2
  have u1 : ‖s'.u - (b - s'.z)‖ ≤ 10 * (u * B) := by
    have h4 : ‖subR rnd b s'.z - (b - s'.z)‖ ≤ u * ‖b - s'.z‖ := norm_rnd_sub hr (b - s'.z)
    have h5 := mul_le_mul_of_nonneg_left ((norm_sub_le b s'.z).trans (show _ ≤ 10 * B by linarith)) hu
    rw [hw]
    linarith
  have du' : ‖s'.u - t'.u‖ ≤ 3 * δ + 26 * (u * B) + 10 * D := by
    have e : s'.u - t'.u = (s'.u - (b - s'.z)) + (b - (s.u + s'.x)) + (s.u - t.u) + (s'.x - t'.x) - (s'.z - t'.z) := by rw [kw]; abel
    rw [e]
    refine (norm_sub_le _ _).trans ((add_le_add norm_add₄_le le_rfl).trans ?_)
    linarith
  refine ⟨bx', bz, ?_⟩
  have h := norm_sub_norm_le s'.u t'.u
  linarith

/-- **C114** The rounded ADMM (`gfirst=True`) without a bound on the computed run.  The exact run stays within norm `B`;
the rounded operators are within `δ` of the exact ones on the points of norm at most `8 B`.  For as many iterations `n` as
`10 n (4 δ + 44 u B) ≤ B` allows, the computed run stays within `2 B`, both returned vectors are within
`n (4 δ + 44 u B)` of the exact ones, and the multiplier is within twice that. -/
theorem C114_admm_error_selfbounded_gfirst (hr : Rounding rnd u) {F G : XFun (Vec ι)} (hF : F.Convex) (hG : G.Convex)
    {f g fR gR : ProxOp (Vec ι)} (hf : ProxExact f F) (hg : ProxExact g G) {τ δ B : ℝ} (hτ : 0 < τ)
    (hfR : ∀ v, ∃ y, fR.prox v τ = .ok y ∧ (‖v‖ ≤ 8 * B → ∀ p, f.prox v τ = .ok p → ‖y - p‖ ≤ δ))
    (hgR : ∀ v, ∃ y, gR.prox v τ = .ok y ∧ (‖v‖ ≤ 8 * B → ∀ p, g.prox v τ = .ok p → ‖y - p‖ ≤ δ))
    (x0 z0 : Option (Vec ι)) (hinit : ∃ xz, x0z0Init x0 z0 = .ok xz) (n : ℕ)
    (hB : ∀ k, k ≤ n → ∀ e, ADMM f g x0 z0 τ k true = .ok e → ‖e.x‖ ≤ B ∧ ‖e.z‖ ≤ B ∧ ‖e.u‖ ≤ B)
    (hn : 10 * (n * (4 * δ + 44 * u * B)) ≤ B) :
    ∃ s e, ADMMR rnd fR gR x0 z0 τ n true = .ok s ∧ ADMM f g x0 z0 τ n true = .ok e ∧
      ‖s.x - e.x‖ ≤ n * (4 * δ + 44 * u * B) ∧ ‖s.z - e.z‖ ≤ n * (4 * δ + 44 * u * B) ∧
      ‖s.u - e.u‖ ≤ 2 * n * (4 * δ + 44 * u * B) ∧ ‖s.x‖ ≤ 2 * B ∧ ‖s.z‖ ≤ 2 * B ∧ ‖s.u‖ ≤ 2 * B := by
  have hfR' : ∀ v, ∃ y, fR.prox v τ = .ok y ∧ (‖v‖ ≤ 4 * (2 * B) → ∀ p, f.prox v τ = .ok p → ‖y - p‖ ≤ δ) := fun v => by
    obtain ⟨y, h1, h2⟩ := hfR v
    exact ⟨y, h1, fun hv => h2 (by linarith)⟩
  have hgR' : ∀ v, ∃ y, gR.prox v τ = .ok y ∧ (‖v‖ ≤ 4 * (2 * B) → ∀ p, g.prox v τ = .ok p → ‖y - p‖ ≤ δ) := fun v => by
    obtain ⟨y, h1, h2⟩ := hgR v
    exact ⟨y, h1, fun hv => h2 (by linarith)⟩
  have hinit' := hinit
  obtain ⟨⟨x, z⟩, hi⟩ := hinit
  obtain ⟨P, hP, hP'⟩ := proxExact_map hf hτ
  obtain ⟨Q, hQ, hQ'⟩ := proxExact_map hg hτ
  have fP := firm_prox hF hτ hP'
  have fQ := firm_prox hG hτ hQ'
  have cfR := hfR
  have cgR := hgR
  choose Pr hPr hPr' using cfR
  choose Qr hQr hQr' using cgR
  have hPe : ∀ v, ‖v‖ ≤ 8 * B → ‖Pr v - P v‖ ≤ δ := fun v hv => hPr' v hv _ (hP v)
  have hQe : ∀ v, ‖v‖ ≤ 8 * B → ‖Qr v - Q v‖ ≤ δ := fun v hv => hQr' v hv _ (hQ v)
  obtain ⟨S, s1, s2, s3, hS, hSn⟩ := admmR_traj_gfirst (rnd := rnd) hPr hQr x0 z0 x z hi
  obtain ⟨T, t1, t2, t3, tu, tx, -, -, hTn⟩ := admm_traj hP hQ true x0 z0 x z hi
  replace tx := tx rfl
  have hT : ∀ k, k ≤ n → ‖(T k).x‖ ≤ B ∧ ‖(T k).z‖ ≤ B ∧ ‖(T k).u‖ ≤ B := fun k hk => hB k hk _ (hTn k)
  have hB0 : 0 ≤ B := (norm_nonneg _).trans (hT 0 (Nat.zero_le n)).1
  have hδ : 0 ≤ δ := (norm_nonneg _).trans (hPe 0 (by simpa using hB0))
  have hu := hr.nonneg_u
  have hε0 : 0 ≤ 4 * δ + 44 * u * B := by positivity
  have hbd : ∀ k, k ≤ n → ∀ j, j ≤ k → ‖(S j).x‖ ≤ 2 * B ∧ ‖(S j).z‖ ≤ 2 * B ∧ ‖(S j).u‖ ≤ 2 * B := by
    intro k
    induction k with
    | zero =>
      intro _ j hj
      obtain rfl : j = 0 := by omega
      have h := hT 0 (Nat.zero_le n)
      rw [t1, t2, t3] at h
      rw [s1, s2, s3]
      exact ⟨by linarith [h.1], by linarith [h.2.1], by rw [norm_zero]; linarith⟩
    | succ k ih =>
      intro hk j hj
      have ih := ih (by omega)
      rcases Nat.lt_or_ge j (k + 1) with h | h
      · exact ih j (by omega)
      obtain rfl : j = k + 1 := by omega
      obtain ⟨s, e, e1, e2, e4, -, e5⟩ := C114_admm_error_gfirst hr hF hG hf hg hτ hfR' hgR' x0 z0 hinit' k fun m hm s hs => by
        rw [hSn m] at hs
        obtain rfl : S m = s := by simpa using hs
        exact ih m hm
      rw [hSn k] at e1
      rw [hTn k] at e2
      obtain rfl : S k = s := by simpa using e1
      obtain rfl : T k = e := by simpa using e2
      have hT' := hT (k + 1) hk
      have hk' : ((k : ℝ) + 1) * (4 * δ + 44 * u * B) ≤ n * (4 * δ + 44 * u * B) :=
        mul_le_mul_of_nonneg_right (by exact_mod_cast hk) hε0
      refine admmR_step_within_gfirst hr fP fQ (D := k * (4 * δ + 44 * u * B)) hPe hQe hB0 hδ rfl (hS k)
        ⟨(tx k).1, (tx k).2, tu k⟩ (ih k le_rfl).1 (ih k le_rfl).2.2 ?_ ?_ ?_ (by positivity) hT'.1 hT'.2.1 hT'.2.2
      · refine e4.trans (le_of_eq ?_); ring
      · refine e5.trans (le_of_eq ?_); ring
      · linarith
  obtain ⟨s, e, e1, e2, e3, e4, e5⟩ := C114_admm_error_gfirst hr hF hG hf hg hτ hfR' hgR' x0 z0 hinit' n fun m hm s hs => by
    rw [hSn m] at hs
    obtain rfl : S m = s := by simpa using hs
    exact hbd n le_rfl m hm
  have hs := hbd n le_rfl n le_rfl
  have e1' := e1
  rw [hSn n] at e1'
  obtain rfl : S n = s := by simpa using e1'
  refine ⟨_, e, e1, e2, e3.trans (le_of_eq ?_), e4.trans (le_of_eq ?_), e5.trans (le_of_eq ?_), hs⟩ <;> ring

/-- **C114** The same for the exact ADMM with `gfirst=True`, within the norm `‖x‖ + ‖z‖ + (3 m + tau sigma) sqrt d`. -/
theorem C114_admm_box_l1_exact_bounded_gfirst {σ τ m : ℝ} (hσ : 0 ≤ σ) (hτ : 0 < τ) (lower upper : ι → ℝ) (hle : ∀ i, lower i ≤ upper i)
    (hm0 : 0 ≤ m) (hm : ∀ i, -m ≤ lower i ∧ upper i ≤ m) (x0 z0 : Option (Vec ι)) (x z : Vec ι)
    (hinit : x0z0Init x0 z0 = .ok (x, z)) (n : ℕ) (e : SplitState (Vec ι))
    (he : ADMM (Box (fun i => some (lower i)) fun i => some (upper i)) (L1 σ none) x0 z0 τ n true = .ok e) :
    ‖e.x‖ ≤ ‖x‖ + ‖z‖ + (3 * m + τ * σ) * √(Fintype.card ι) ∧ ‖e.z‖ ≤ ‖x‖ + ‖z‖ + (3 * m + τ * σ) * √(Fintype.card ι) ∧
      ‖e.u‖ ≤ ‖x‖ + ‖z‖ + (3 * m + τ * σ) * √(Fintype.card ι) := by
  have hT : 0 ≤ τ * σ := mul_nonneg hτ.le hσ
  obtain ⟨T, t1, t2, t3, tu, tz, -, -, hTn⟩ := admm_traj (f := Box (fun i => some (lower i)) fun i => some (upper i)) (g := L1 σ none)
    (τ := τ) (Pf := boxProj (fun i => some (lower i)) fun i => some (upper i)) (Pg := fun v => softthreshold v fun _ => τ * σ)
    (fun v => by simp [ProxOp.prox, Box, checkTau, not_le.mpr hτ]) (fun v => by simp [ProxOp.prox, L1, checkTau, not_le.mpr hτ])
    true x0 z0 x z hinit
  replace tz := tz rfl
  rw [hTn n] at he
  obtain rfl : T n = e := by simpa using he
  have hx0 := norm_nonneg x
  have hz0 := norm_nonneg z
  have hd : 0 ≤ √(Fintype.card ι : ℝ) := Real.sqrt_nonneg _
  have hmd := mul_nonneg hm0 hd
  have hTd := mul_nonneg hT hd
  rw [add_mul, mul_assoc 3]
  have hx : ∀ k, ‖(T (k + 1)).x‖ ≤ m * √(Fintype.card ι) := fun k => by
    refine norm_le_of_entries hm0 fun i => ?_
    have hd : boxClip (some (lower i)) (some (upper i)) (((T (k + 1)).z - (T k).u) i) =
        min (max (((T (k + 1)).z - (T k).u) i) (lower i)) (upper i) := rfl
    rw [(tz k).2]
    simp only [boxProj, hd]
    exact abs_le.mpr ⟨(hm i).1.trans (le_min (le_max_right _ _) (hle i)), (min_le_right _ _).trans (hm i).2⟩
  have hsoft : ∀ k, ‖(T (k + 1)).z‖ ≤ ‖(T k).x + (T k).u‖ := fun k => by
    rw [(tz k).1, EuclideanSpace.norm_eq, EuclideanSpace.norm_eq]
    exact Real.sqrt_le_sqrt (Finset.sum_le_sum fun i _ => pow_le_pow_left₀ (norm_nonneg _) (softScalar_abs_le hT) 2)
  -- the point handed to the box
  have hw : ∀ k, ‖(T (k + 1)).z - (T k).u‖ ≤ ‖x‖ + (m * √(Fintype.card ι) + τ * σ * √(Fintype.card ι)) := by
    rintro (_ | k)
    · have h := hsoft 0
      rw [t1, t3, add_zero] at h
      rw [t3, sub_zero]
      linarith
    · have h : ‖(T (k + 2)).z - ((T (k + 1)).x + (T (k + 1)).u)‖ ≤ τ * σ * √(Fintype.card ι) := by
        refine norm_le_of_entries hT fun i => ?_
        have h := softScalar_thresh (((T (k + 1)).x + (T (k + 1)).u) i) (τ * σ) 0
        have h0 : softScalar (((T (k + 1)).x + (T (k + 1)).u) i) 0 = ((T (k + 1)).x + (T (k + 1)).u) i := by
          rw [soft_eq_clip le_rfl]
          have : max (-0) (min (((T (k + 1)).x + (T (k + 1)).u) i) 0) = 0 := by
            rw [neg_zero]; exact max_eq_left (min_le_right _ _)
          rw [this, sub_zero]
        rw [h0, sub_zero, abs_of_nonneg hT] at h
        rw [(tz (k + 1)).1]
        exact h
      have e : (T (k + 1 + 1)).z - (T (k + 1)).u = ((T (k + 2)).z - ((T (k + 1)).x + (T (k + 1)).u)) + (T (k + 1)).x := by abel
      rw [e]
      refine (norm_add_le _ _).trans ?_
      linarith [hx k]
  have hu : ∀ k, ‖(T (k + 1)).u‖ ≤ ‖x‖ + (2 * (m * √(Fintype.card ι)) + τ * σ * √(Fintype.card ι)) := fun k => by
    have e : (T (k + 1)).u = (T (k + 1)).x - ((T (k + 1)).z - (T k).u) := by rw [tu k]; abel
    rw [e]
    refine (norm_sub_le _ _).trans ?_
    linarith [hx k, hw k]
  rcases n with _ | k
  · rw [t1, t2, t3, norm_zero]
    exact ⟨by linarith, by linarith, by linarith⟩
  refine ⟨by linarith [hx k], (hsoft k).trans ?_, by linarith [hu k]⟩
  rcases k with _ | k
  · rw [t1, t3, add_zero]
    linarith
  · linarith [norm_add_le (T (k + 1)).x (T (k + 1)).u, hx k, hu k]

/-- **C114** ADMM with `Box` and `L1` in rounded arithmetic with `gfirst=True`, when only the exact run is known to stay within norm `B`: for
as many iterations as `10 n u (76 B + 4 tau sigma sqrt d) ≤ B` allows, the computed run stays within `2 B` and both
returned vectors are within `n u (76 B + 4 tau sigma sqrt d)` of the exact ones. -/
theorem C114_admm_box_l1_selfbounded_gfirst (hr : Rounding rnd u) (val : Vec ι → Py CallVal) {σ τ B : ℝ} (hσ : 0 ≤ σ) (hτ : 0 < τ)
    (lower upper : ι → ℝ) (hle : ∀ i, lower i ≤ upper i) (x0 z0 : Option (Vec ι)) (hinit : ∃ xz, x0z0Init x0 z0 = .ok xz) (n : ℕ)
    (hB : ∀ k, k ≤ n → ∀ e, ADMM (Box (fun i => some (lower i)) fun i => some (upper i)) (L1 σ none) x0 z0 τ k true = .ok e →
      ‖e.x‖ ≤ B ∧ ‖e.z‖ ≤ B ∧ ‖e.u‖ ≤ B)
    (hn : 10 * (n * (u * (76 * B + 4 * (τ * σ * √(Fintype.card ι))))) ≤ B) :
    ∃ s e, ADMMR rnd (Box (fun i => some (lower i)) fun i => some (upper i)) (L1R rnd val σ none) x0 z0 τ n true = .ok s ∧
      ADMM (Box (fun i => some (lower i)) fun i => some (upper i)) (L1 σ none) x0 z0 τ n true = .ok e ∧
      ‖s.x - e.x‖ ≤ n * (u * (76 * B + 4 * (τ * σ * √(Fintype.card ι)))) ∧
      ‖s.z - e.z‖ ≤ n * (u * (76 * B + 4 * (τ * σ * √(Fintype.card ι)))) ∧ ‖s.x‖ ≤ 2 * B ∧ ‖s.z‖ ≤ 2 * B ∧ ‖s.u‖ ≤ 2 * B := by
  have hu := hr.nonneg_u
  have hB0 : 0 ≤ B := by
    obtain ⟨⟨x, z⟩, hi⟩ := hinit
    refine (norm_nonneg _).trans (hB 0 (Nat.zero_le n) ⟨x, z, 0, []⟩ ?_).1
    simp [ADMM, hi, Bind.bind, Except.bind, forRange]
  have hT : 0 ≤ τ * σ * √(Fintype.card ι) := by positivity
  have cF := indicator_convex (boxSet_convex (fun i => some (lower i)) fun i => some (upper i))
  have cG := l1Sigma_convex (ι := ι) hσ
  have pF := box_proxExact (fun i => some (lower i)) (fun i => some (upper i)) fun i a b ha hb => by
    obtain rfl : lower i = a := by simpa using ha
    obtain rfl : upper i = b := by simpa using hb
    exact hle i
  have pG : ProxExact (L1 σ none) (XFun.ofReal fun x : Vec ι => σ * ∑ i, |x i - (0 : Vec ι) i|) := fun x τ hτ => by
    obtain ⟨p, h1, h2⟩ := C11_l1_prox σ hσ none x τ hτ
    exact ⟨p, h1, h2.1⟩
  have e : ∀ v : Vec ι, (Box (fun i => some (lower i)) fun i => some (upper i)).prox v τ =
      .ok (boxProj (fun i => some (lower i)) (fun i => some (upper i)) v) := fun v => by
    simp [ProxOp.prox, Box, checkTau, not_le.mpr hτ]
  have eF : ∀ v : Vec ι, ∃ y, (Box (fun i => some (lower i)) fun i => some (upper i)).prox v τ = .ok y ∧
      (‖v‖ ≤ 8 * B → ∀ p, (Box (fun i => some (lower i)) fun i => some (upper i)).prox v τ = .ok p →
        ‖y - p‖ ≤ u * (8 * B + τ * σ * √(Fintype.card ι))) := fun v =>
    ⟨_, e v, fun _ p hp => by
      rw [e v] at hp
      obtain rfl : boxProj (fun i => some (lower i)) (fun i => some (upper i)) v = p := by simpa using hp
      rw [sub_self, norm_zero]
      positivity⟩
  have eG : ∀ v : Vec ι, ∃ y, (L1R rnd val σ none).prox v τ = .ok y ∧
      (‖v‖ ≤ 8 * B → ∀ p, (L1 σ none).prox v τ = .ok p → ‖y - p‖ ≤ u * (8 * B + τ * σ * √(Fintype.card ι))) := fun v => by
    obtain ⟨y, hy, hb⟩ := L1R_norm_err hr val hσ hτ v
    exact ⟨y, hy, fun hv p hp => (hb p hp).trans (mul_le_mul_of_nonneg_left (by linarith) hu)⟩
  have ee : 4 * (u * (8 * B + τ * σ * √(Fintype.card ι))) + 44 * u * B = u * (76 * B + 4 * (τ * σ * √(Fintype.card ι))) := by ring
  obtain ⟨s, e, h1, h2, h3, h4, -, h6⟩ := C114_admm_error_selfbounded_gfirst hr cF cG pF pG hτ eF eG x0 z0 hinit n hB (by rw [ee]; exact hn)
  rw [ee] at h3 h4
  exact ⟨s, e, h1, h2, h3, h4, h6⟩

/-- **C114** ADMM with a bounded `Box` and `L1` in rounded arithmetic with `gfirst=True`, with nothing supposed of either run: for up to
`1 / (800 u)` iterations (more than 10^13 in double precision) the vectors returned after `n` iterations are within
`80 n u B` of the exact ones, `B = ‖x‖ + ‖z‖ + (3 m + tau sigma) sqrt d`, and the computed run stays within `2 B`. -/
theorem C114_admm_box_l1_unconditional_gfirst (hr : Rounding rnd u) (val : Vec ι → Py CallVal) {σ τ m : ℝ} (hσ : 0 ≤ σ) (hτ : 0 < τ)
    (lower upper : ι → ℝ) (hle : ∀ i, lower i ≤ upper i) (hm0 : 0 ≤ m) (hm : ∀ i, -m ≤ lower i ∧ upper i ≤ m)
    (x0 z0 : Option (Vec ι)) (x z : Vec ι) (hinit : x0z0Init x0 z0 = .ok (x, z)) (n : ℕ) (hn : 800 * (n * u) ≤ 1) :
    ∃ s e, ADMMR rnd (Box (fun i => some (lower i)) fun i => some (upper i)) (L1R rnd val σ none) x0 z0 τ n true = .ok s ∧
      ADMM (Box (fun i => some (lower i)) fun i => some (upper i)) (L1 σ none) x0 z0 τ n true = .ok e ∧
      ‖s.x - e.x‖ ≤ 80 * (n * u) * (‖x‖ + ‖z‖ + (3 * m + τ * σ) * √(Fintype.card ι)) ∧
      ‖s.z - e.z‖ ≤ 80 * (n * u) * (‖x‖ + ‖z‖ + (3 * m + τ * σ) * √(Fintype.card ι)) ∧
      ‖s.x‖ ≤ 2 * (‖x‖ + ‖z‖ + (3 * m + τ * σ) * √(Fintype.card ι)) ∧ ‖s.z‖ ≤ 2 * (‖x‖ + ‖z‖ + (3 * m + τ * σ) * √(Fintype.card ι)) ∧
      ‖s.u‖ ≤ 2 * (‖x‖ + ‖z‖ + (3 * m + τ * σ) * √(Fintype.card ι)) := by
  have hu := hr.nonneg_u
  have hT : 0 ≤ τ * σ := mul_nonneg hτ.le hσ
  have hd : 0 ≤ √(Fintype.card ι : ℝ) := Real.sqrt_nonneg _
  have hTB : τ * σ * √(Fintype.card ι) ≤ ‖x‖ + ‖z‖ + (3 * m + τ * σ) * √(Fintype.card ι) := by
    rw [add_mul]
    linarith [norm_nonneg x, norm_nonneg z, mul_nonneg hm0 hd]
  have hB0 : 0 ≤ ‖x‖ + ‖z‖ + (3 * m + τ * σ) * √(Fintype.card ι) := (mul_nonneg hT hd).trans hTB
  have hex := C114_admm_box_l1_exact_bounded_gfirst hσ hτ lower upper hle hm0 hm x0 z0 x z hinit
  generalize ‖x‖ + ‖z‖ + (3 * m + τ * σ) * √(Fintype.card ι) = B at *
  have hnu : 0 ≤ (n : ℝ) * u := by positivity
  have h1 : n * (u * (76 * B + 4 * (τ * σ * √(Fintype.card ι)))) ≤ 80 * (n * u) * B := by
    have := mul_le_mul_of_nonneg_left (by linarith : 76 * B + 4 * (τ * σ * √(Fintype.card ι)) ≤ 80 * B) hnu
    linarith
  have h2 : 800 * (n * u) * B ≤ 1 * B := mul_le_mul_of_nonneg_right hn hB0
  obtain ⟨s, e, e1, e2, e3, e4, e5⟩ := C114_admm_box_l1_selfbounded_gfirst hr val (B := B) hσ hτ lower upper hle x0 z0 ⟨_, hinit⟩ n
    (fun k _ e he => hex k e he) (by linarith)
  exact ⟨s, e, e1, e2, e3.trans h1, e4.trans h1, e5⟩

/-- A million iterations in double precision. -/
example : ∃ s e, ADMMR (nearBits 52) (Box (fun _ : Fin 2 => some (-1)) fun _ => some 1) (L1R (nearBits 52) (fun _ => .ok (.num 0)) 1 none)
      (some (vmk fun _ : Fin 2 => (3 : ℝ))) none 1 1000000 false = .ok s ∧
    ADMM (Box (fun _ : Fin 2 => some (-1)) fun _ => some 1) (L1 1 none) (some (vmk fun _ : Fin 2 => (3 : ℝ))) none 1 1000000 false = .ok e ∧
    ‖s.z - e.z‖ ≤ (2 : ℝ) ^ (-26 : ℤ) * (‖(vmk fun _ : Fin 2 => (3 : ℝ) : Vec (Fin 2))‖ + ‖(vmk fun _ : Fin 2 => (3 : ℝ) : Vec (Fin 2))‖ +
      (1 + 1 * 1) * √(Fintype.card (Fin 2))) := by
  obtain ⟨s, e, h1, h2, -, h4, -⟩ := C114_admm_box_l1_unconditional (nearBits_rounding 52 (by norm_num)) (fun _ => .ok (.num 0)) (m := 1)
    zero_le_one one_pos (fun _ : Fin 2 => -1) (fun _ => 1) (fun _ => by norm_num) zero_le_one (fun _ => by norm_num)
    (some (vmk fun _ : Fin 2 => (3 : ℝ))) none _ _ rfl 1000000 (by norm_num)
  refine ⟨s, e, h1, h2, h4.trans (mul_le_mul_of_nonneg_right (by norm_num) (by positivity))⟩

/-- Double precision, five iterations: the exact run stays within some norm, and the bound then holds of the computed run. -/
example : ∃ B s e, ADMMR (nearBits 52) (Box (fun _ : Fin 2 => some 0) fun _ => some 1) (L1R (nearBits 52) (fun _ => .ok (.num 0)) 1 none)
      (some (vmk fun _ : Fin 2 => (3 : ℝ))) none 1 5 false = .ok s ∧
    ADMM (Box (fun _ : Fin 2 => some 0) fun _ => some 1) (L1 1 none) (some (vmk fun _ : Fin 2 => (3 : ℝ))) none 1 5 false = .ok e ∧
    ‖s.z‖ ≤ 2 * B ∧ ‖s.z - e.z‖ ≤ 5 * (1 / 2 * ((2 : ℝ) ^ 52)⁻¹ * (72 * B + 4 * (1 * 1 * √(Fintype.card (Fin 2))))) := by
  have hr := nearBits_rounding 52 (by norm_num)
  have pF := box_proxExact (fun _ : Fin 2 => some 0) (fun _ => some 1) fun i a b ha hb => by
    obtain rfl : (0 : ℝ) = a := by simpa using ha
    obtain rfl : (1 : ℝ) = b := by simpa using hb
    exact zero_le_one
  have pG : ProxExact (L1 1 none) (XFun.ofReal fun x : Vec (Fin 2) => 1 * ∑ i, |x i - (0 : Vec (Fin 2)) i|) := fun x τ hτ => by
    obtain ⟨p, h1, h2⟩ := C11_l1_prox 1 zero_le_one none x τ hτ
    exact ⟨p, h1, h2.1⟩
  obtain ⟨P, hP, -⟩ := proxExact_map pF one_pos
  obtain ⟨Q, hQ, -⟩ := proxExact_map pG one_pos
  obtain ⟨T, -, -, -, -, -, -, -, hT⟩ := admm_traj hP hQ false (some (vmk fun _ : Fin 2 => (3 : ℝ))) none _ _ rfl
  set M : ℝ := ∑ k ∈ Finset.range 6, (‖(T k).x‖ + ‖(T k).z‖ + ‖(T k).u‖) with hM
  have hM0 : 0 ≤ M := Finset.sum_nonneg fun k _ => by positivity
  have h5 : √(2 : ℝ) ≤ 2 := Real.sqrt_le_iff.mpr ⟨by norm_num, by norm_num⟩
  obtain ⟨s, e, h1, h2, -, h4, -, h6, -⟩ := C114_admm_box_l1_selfbounded hr (fun _ => .ok (.num 0)) (B := M + 1) zero_le_one one_pos
    (fun _ : Fin 2 => 0) (fun _ => 1) (fun _ => zero_le_one) (some (vmk fun _ : Fin 2 => (3 : ℝ))) none ⟨_, rfl⟩ 5 (fun k hk e he => by
      rw [hT k] at he
      obtain rfl : T k = e := by simpa using he
      have := Finset.single_le_sum (f := fun k => ‖(T k).x‖ + ‖(T k).z‖ + ‖(T k).u‖) (fun k _ => by positivity)
        (Finset.mem_range.mpr (Nat.lt_succ_of_le hk))
      refine ⟨?_, ?_, ?_⟩ <;> refine le_trans ?_ (this.trans (le_add_of_nonneg_right zero_le_one)) <;>
        linarith [norm_nonneg (T k).x, norm_nonneg (T k).z, norm_nonneg (T k).u]) (by
      push_cast
      norm_num
      linarith)
  exact ⟨M + 1, s, e, h1, h2, h6, by exact_mod_cast h4⟩

end Verif
