import Verif.Props.Special
import Verif.Lemmas.Loop

/-!
# C105: where NaN and infinities go

`KeepsNan` and `SpreadsNan` are in `Props/Special`.  Here they are decided for every operator, as is what becomes of an infinite entry, and the solvers are followed from a starting point that contains NaN.
-/

namespace Verif

open XF Classical

variable {ι κ : Type} [Fintype ι] [Fintype κ]

/-- An entry of the result depends on the same entry of the argument only. -/
def LocalOp (p : (ι → XF) → ℝ → Py (ι → XF)) : Prop :=
  ∀ x x' τ y y' i, p x τ = .ok y → p x' τ = .ok y' → x i = x' i → y i = y' i

/-- An infinite entry of the argument is an entry of the result. -/
def KeepsInf (p : (ι → XF) → ℝ → Py (ι → XF)) : Prop := ∀ x τ i, 0 < τ → x i = pinf ∨ x i = ninf → ∃ y, p x τ = .ok y ∧ y i = x i

/-- A NaN in the input is replaced by zero, without a trace in the output. -/
def ErasesNan (p : (ι → XF) → ℝ → Py (ι → XF)) : Prop := ∀ x τ i, 0 < τ → x i = nan → ∃ y, p x τ = .ok y ∧ y i = fin 0

/-- The same for infinite entries. -/
def ErasesInf (p : (ι → XF) → ℝ → Py (ι → XF)) : Prop := ∀ x τ i, 0 < τ → x i = pinf ∨ x i = ninf → ∃ y, p x τ = .ok y ∧ y i = fin 0

omit [Fintype ι] in
theorem keeps_each {P : ι → ℝ → XF → XF} {p : (ι → XF) → ℝ → Py (ι → XF)} (hp : ∀ x τ, p x τ = checkTau τ (.ok fun i => P i τ (x i))) (h : ∀ i τ, 0 < τ → P i τ nan = nan) : KeepsNan p :=
  fun x τ i hτ hx => ⟨_, (hp x τ).trans (checkTau_pos hτ _), by rw [hx]; exact h i τ hτ⟩

omit [Fintype ι] in
theorem keepsInf_each {P : ι → ℝ → XF → XF} {p : (ι → XF) → ℝ → Py (ι → XF)} (hp : ∀ x τ, p x τ = checkTau τ (.ok fun i => P i τ (x i)))
    (h : ∀ i τ, 0 < τ → P i τ pinf = pinf ∧ P i τ ninf = ninf) : KeepsInf p := fun x τ i hτ hx => ⟨_, (hp x τ).trans (checkTau_pos hτ _), by
  rcases hx with hx | hx <;> rw [hx]
  exacts [(h i τ hτ).1, (h i τ hτ).2]⟩

omit [Fintype ι] in
theorem local_each {P : ι → ℝ → XF → XF} {p : (ι → XF) → ℝ → Py (ι → XF)} (hp : ∀ x τ, p x τ = checkTau τ (.ok fun i => P i τ (x i))) : LocalOp p := by
  intro x x' τ y y' i h h' hx
  rcases le_or_gt τ 0 with hτ | hτ
  · rw [hp, checkTau, if_pos hτ] at h; cases h
  · rw [hp, checkTau_pos hτ] at h h'
    cases h; cases h'
    exact congrArg (P i τ) hx

theorem softX_nan (t : ℝ) : softX nan t = nan := by simp [softX]

/-- C105: `L2` without `Op`, with `b` or without it and with or without `q`, on finite arrays (`0 ≤ σ`, so that the divisor is not zero). -/
theorem C105_l2_agrees {F C : Type} [NormedAddCommGroup F] [InnerProductSpace ℝ F] (ext : L2Ext (Vec ι) F C) (a : L2Args (Vec ι) F) (s : L2State (Vec ι) C) (hσ : 0 ≤ a.σ) (x : Vec ι) (τ : ℝ) :
    (∀ b, a.data = .bOnly b → Agrees (L2X.prox a.σ (some b) (a.q.map (·, a.α)) (liftX x) τ) (L2.prox ext a s x τ).2.1)
      ∧ (a.data = .nothing → Agrees (L2X.prox a.σ none (a.q.map (·, a.α)) (liftX x) τ) (L2.prox ext a s x τ).2.1) := by
  rcases le_or_gt τ 0 with hτ | hτ
  · simp only [L2X.prox, L2.prox, checkTau, if_pos hτ, Agrees]; simp
  have hd : 1 + τ * a.σ ≠ 0 := by positivity
  constructor
  · intro b hb
    simp only [L2X.prox, L2.prox, checkTau_pos hτ, if_neg hτ.not_ge, L2.proxBody, hb, L2.subQ, npDivBy_ok _ hd, Agrees]
    refine congrArg Except.ok (funext fun i => ?_)
    cases a.q with
    | none => simp [liftX, fin_div' hd]; field_simp
    | some q => simp [liftX, fin_div' hd]; field_simp
  · intro hb
    simp only [L2X.prox, L2.prox, checkTau_pos hτ, if_neg hτ.not_ge, L2.proxBody, hb, L2.subQ, npDivBy_ok _ hd, Agrees]
    refine congrArg Except.ok (funext fun i => ?_)
    cases a.q with
    | none => simp [liftX, fin_div' hd]; field_simp
    | some q => simp [liftX, fin_div' hd]; field_simp

/-! ## NaN is kept where it is -/

/-- C105: the entry by entry operators that keep a NaN and do not let it touch other entries. -/
theorem C105_nan_kept (σ α μ k : ℝ) (a : ℝ) (γ : ℝ) (g b : Option (Vec ι)) (qα : Option (Vec ι × ℝ)) (lower upper : ι → Bound) :
    (KeepsNan (L1X.prox σ g) ∧ LocalOp (L1X.prox σ g)) ∧ (KeepsNan (BoxX.prox lower upper) ∧ LocalOp (BoxX.prox lower upper))
      ∧ (KeepsNan (L0X.prox (ι := ι) σ) ∧ LocalOp (L0X.prox (ι := ι) σ)) ∧ (KeepsNan (L2X.prox σ b qα) ∧ LocalOp (L2X.prox σ b qα))
      ∧ (KeepsNan (HuberX.prox (ι := ι) α) ∧ LocalOp (HuberX.prox (ι := ι) α)) ∧ (KeepsNan (eachX (ι := ι) (scadProxX σ a)) ∧ LocalOp (eachX (ι := ι) (scadProxX σ a)))
      ∧ (KeepsNan (eachX (ι := ι) (qecProxX μ)) ∧ LocalOp (eachX (ι := ι) (qecProxX μ))) ∧ (KeepsNan (eachX (ι := ι) (rmsProxX σ k)) ∧ LocalOp (eachX (ι := ι) (rmsProxX σ k)))
      ∧ (KeepsNan (eachX (ι := ι) (logProxX σ γ)) ∧ LocalOp (eachX (ι := ι) (logProxX σ γ))) := by
  refine ⟨?_, ?_, ?_, ?_, ?_, ?_, ?_, ?_, ?_⟩
  · have hp : ∀ x τ, L1X.prox σ g x τ = checkTau τ (.ok fun i => (match g with | none => softX (x i) (τ * σ) | some g => softX (x i - fin (g i)) (τ * σ) + fin (g i))) := fun _ _ => rfl
    cases g with
    | none => exact ⟨keeps_each (P := fun _ τ z => softX z (τ * σ)) hp fun _ _ _ => softX_nan _, local_each (P := fun _ τ z => softX z (τ * σ)) hp⟩
    | some g =>
      exact ⟨keeps_each (P := fun i τ z => softX (z - fin (g i)) (τ * σ) + fin (g i)) hp fun _ _ _ => by simp [softX_nan],
        local_each (P := fun i τ z => softX (z - fin (g i)) (τ * σ) + fin (g i)) hp⟩
  · exact ⟨keeps_each (P := fun i _ z => npmin (npmax z (lowerX (lower i))) (upperX (upper i))) (fun _ _ => rfl) fun _ _ _ => by simp,
      local_each (P := fun i _ z => npmin (npmax z (lowerX (lower i))) (upperX (upper i))) fun _ _ => rfl⟩
  · exact ⟨keeps_each (P := fun _ τ z => if le z.abs (fin (τ * σ)) then fin 0 else z) (fun _ _ => rfl) fun _ _ _ => by simp,
      local_each (P := fun _ τ z => if le z.abs (fin (τ * σ)) then fin 0 else z) fun _ _ => rfl⟩
  · cases b with
    | none => cases qα with
      | none => exact ⟨keeps_each (P := fun _ τ z => z / fin (1 + τ * σ)) (fun _ _ => rfl) fun _ _ _ => by simp, local_each (P := fun _ τ z => z / fin (1 + τ * σ)) fun _ _ => rfl⟩
      | some q => exact ⟨keeps_each (P := fun i τ z => (z - fin (τ * q.2 * q.1 i)) / fin (1 + τ * σ)) (fun _ _ => rfl) fun _ _ _ => by simp,
          local_each (P := fun i τ z => (z - fin (τ * q.2 * q.1 i)) / fin (1 + τ * σ)) fun _ _ => rfl⟩
    | some b => cases qα with
      | none => exact ⟨keeps_each (P := fun i τ z => (z + fin (τ * σ * b i)) / fin (1 + τ * σ)) (fun _ _ => rfl) fun _ _ _ => by simp,
          local_each (P := fun i τ z => (z + fin (τ * σ * b i)) / fin (1 + τ * σ)) fun _ _ => rfl⟩
      | some q => exact ⟨keeps_each (P := fun i τ z => (z + fin (τ * σ * b i) - fin (τ * q.2 * q.1 i)) / fin (1 + τ * σ)) (fun _ _ => rfl) fun _ _ _ => by simp,
          local_each (P := fun i τ z => (z + fin (τ * σ * b i) - fin (τ * q.2 * q.1 i)) / fin (1 + τ * σ)) fun _ _ => rfl⟩
  · exact ⟨keeps_each (P := fun _ τ z => if lt (fin α) z.abs then softX z (τ * 1) else z / fin (1 + τ * (1 / α))) (fun _ _ => rfl) fun _ _ _ => by simp,
      local_each (P := fun _ τ z => if lt (fin α) z.abs then softX z (τ * 1) else z / fin (1 + τ * (1 / α))) fun _ _ => rfl⟩
  · exact ⟨keeps_each (P := fun _ τ z => scadProxX σ a τ z) (fun _ _ => rfl) fun _ _ _ => by simp [scadProxX], local_each (P := fun _ τ z => scadProxX σ a τ z) fun _ _ => rfl⟩
  · exact ⟨keeps_each (P := fun _ τ z => qecProxX μ τ z) (fun _ _ => rfl) fun _ _ _ => by simp [qecProxX], local_each (P := fun _ τ z => qecProxX μ τ z) fun _ _ => rfl⟩
  · exact ⟨keeps_each (P := fun _ τ z => rmsProxX σ k τ z) (fun _ _ => rfl) fun _ _ _ => by simp [rmsProxX], local_each (P := fun _ τ z => rmsProxX σ k τ z) fun _ _ => rfl⟩
  · exact ⟨keeps_each (P := fun _ τ z => logProxX σ γ τ z) (fun _ _ => rfl) fun _ _ _ => by simp [logProxX], local_each (P := fun _ τ z => logProxX σ γ τ z) fun _ _ => rfl⟩

theorem pyDivX_nan (a : XF) : pyDivX a nan = .ok nan := by simp [pyDivX]

/-- C105: the operators that take a norm or an inner product of the whole array return an array of NaN when one entry is NaN. -/
theorem C105_nan_spreads (σ α radius b : ℝ) (center w : Vec ι) :
    SpreadsNan (EuclideanX.prox (ι := ι) σ) ∧ SpreadsNan (EuclideanX.proxdual (ι := ι) σ) ∧ SpreadsNan (HuberCircularX.prox (ι := ι) α)
      ∧ SpreadsNan (EuclideanBallX.prox center radius) ∧ SpreadsNan (HalfSpaceX.prox w b) := by
  refine ⟨?_, ?_, ?_, ?_, ?_⟩ <;> rintro x τ hτ ⟨i, hi⟩
  · refine ⟨fun _ => nan, ?_, fun _ => rfl⟩
    rw [EuclideanX.prox, checkTau_pos hτ, xnorm_nan hi, nan_pymax, pyDivX_nan]
    simp [Bind.bind, Except.bind, Pure.pure, Except.pure]
  · refine ⟨fun _ => nan, ?_, fun _ => rfl⟩
    rw [EuclideanX.proxdual, checkTau_pos hτ, xnorm_nan hi, nan_pymax]
    simp
  · refine ⟨fun _ => nan, ?_, fun _ => rfl⟩
    rw [HuberCircularX.prox, checkTau_pos hτ, xnorm_nan hi, nan_pymax, pyDivX_nan]
    simp [Bind.bind, Except.bind, Pure.pure, Except.pure]
  · refine ⟨fun _ => nan, ?_, fun _ => rfl⟩
    rw [EuclideanBallX.prox, checkTau_pos hτ, xnorm_nan (i := i) (by rw [hi, nan_sub]), nan_pymax, pyDivX_nan]
    simp [Bind.bind, Except.bind, Pure.pure, Except.pure]
  · refine ⟨fun _ => nan, ?_, fun _ => rfl⟩
    rw [HalfSpaceX.prox, checkTau_pos hτ, xdot_nan w hi, if_neg (nan_le _)]
    simp

/-- C105: `L21` and `L21_plus_L1` return NaN in the whole column of a NaN (in the formula of `L21_plus_L1` `nan_to_num` is applied to one factor only) ... -/
theorem C105_nan_column (σ ρ : ℝ) (x : ι × κ → XF) {τ : ℝ} (hτ : 0 < τ) {i : ι} {j : κ} (h : x (i, j) = nan) :
    (∃ y, L21X.prox σ x τ = .ok y ∧ ∀ i', y (i', j) = nan) ∧ (∃ y, L21X.proxdual σ x τ = .ok y ∧ ∀ i', y (i', j) = nan)
      ∧ ∃ y, L21plusL1X.prox σ ρ x τ = .ok y ∧ ∀ i', y (i', j) = nan := by
  have hc : colNormX x j = nan := colNormX_nan (ij := (i, j)) h
  have hl : colNormX (l1X σ ρ τ x) j = nan := colNormX_nan (ij := (i, j)) (by simp [l1X, h])
  exact ⟨⟨_, checkTau_pos hτ _, fun i' => by simp [hc]⟩, ⟨_, checkTau_pos hτ _, fun i' => by simp [hc]⟩, ⟨_, checkTau_pos hτ _, fun i' => by simp [hl]⟩⟩

/-- ... and the other columns do not change. -/
theorem C105_nan_other_columns (σ ρ : ℝ) (x x' : ι × κ → XF) {τ : ℝ} (hτ : 0 < τ) {j : κ} (h : ∀ i, x (i, j) = x' (i, j)) :
    ∃ y y', L21X.prox σ x τ = .ok y ∧ L21X.prox σ x' τ = .ok y' ∧ (∀ i, y (i, j) = y' (i, j))
      ∧ ∃ z z', L21plusL1X.prox σ ρ x τ = .ok z ∧ L21plusL1X.prox σ ρ x' τ = .ok z' ∧ ∀ i, z (i, j) = z' (i, j) := by
  have hc : colNormX x j = colNormX x' j := by simp only [colNormX, h]
  have hl : colNormX (l1X σ ρ τ x) j = colNormX (l1X σ ρ τ x') j := by simp only [colNormX, l1X, h]
  exact ⟨_, _, checkTau_pos hτ _, checkTau_pos hτ _, fun i => by simp only [hc, h], _, _, checkTau_pos hτ _, checkTau_pos hτ _, fun i => by simp only [hl, h, l1X]⟩

/-- C105, refutation: `Log1`, `ETP` and `Geman` start from an array of zeros and assign to the entries that pass a comparison; a NaN fails every comparison and comes back as zero. -/
theorem C105_nan_lost_refuted (lambertw : ℝ → ℝ) (σ δ γ : ℝ) :
    ErasesNan (eachX (ι := ι) (log1ProxX σ δ)) ∧ ErasesNan (eachX (ι := ι) (etpProxX lambertw σ γ)) ∧ ErasesNan (eachX (ι := ι) (gemanProxX σ γ)) := by
  refine ⟨?_, ?_, ?_⟩ <;> intro x τ i hτ hx <;> refine ⟨_, checkTau_pos hτ _, ?_⟩ <;> simp only [hx]
  · simp [log1ProxX]
  · simp [etpProxX]
  · simp [gemanProxX]

/-- C105: the membership tests of `Box`, `EuclideanBall`, `HalfSpace` and `L1Ball` are false on an array with NaN. -/
theorem C105_tests_reject_nan (lower upper : ι → Bound) (center w : Vec ι) (radius b tol : ℝ) {x : ι → XF} {i : ι} (h : x i = nan) :
    ¬ BoxX.call lower upper x ∧ ¬ EuclideanBallX.call center radius x ∧ ¬ HalfSpaceX.call w b x ∧ ¬ L1BallX.call radius tol x := by
  refine ⟨fun hh => ?_, ?_, ?_, ?_⟩
  · have := (hh i).2
    rw [h] at this
    exact nan_le _ this
  · rw [EuclideanBallX.call, xnorm_nan (i := i) (by rw [h, nan_sub])]; exact nan_le _
  · rw [HalfSpaceX.call, xdot_nan w h]; exact nan_le _
  · rw [L1BallX.call, sum_nan Finset.univ _ (Finset.mem_univ i) (by rw [h, nan_abs]), nan_sub]; exact nan_lt _

/-- C105, refutation: the test of `Simplex` is written with comparisons that must fail, and accepts every array with a NaN and no negative entry. -/
theorem C105_simplex_test_refuted (radius tol : ℝ) {x : ι → XF} {i : ι} (h : x i = nan) : SimplexX.call radius tol x ↔ ∀ j, ¬ lt (x j) (fin 0) := by
  rw [SimplexX.call, sum_nan Finset.univ _ (Finset.mem_univ i) h, nan_sub]
  simp

/-! ## Infinite entries -/

namespace XF

@[simp] theorem pinf_abs : pinf.abs = pinf := rfl
@[simp] theorem ninf_abs : ninf.abs = pinf := rfl
@[simp] theorem pinf_sign : pinf.sign = fin 1 := rfl
@[simp] theorem ninf_sign : ninf.sign = fin (-1) := rfl
@[simp] theorem pinf_neg : -pinf = ninf := rfl
@[simp] theorem ninf_neg : -ninf = pinf := rfl
@[simp] theorem pinf_sub_fin (a : ℝ) : pinf - fin a = pinf := rfl
@[simp] theorem ninf_sub_fin (a : ℝ) : ninf - fin a = ninf := rfl
@[simp] theorem fin_sub_pinf (a : ℝ) : fin a - pinf = ninf := rfl
@[simp] theorem fin_sub_ninf (a : ℝ) : fin a - ninf = pinf := rfl
@[simp] theorem pinf_add_fin (a : ℝ) : pinf + fin a = pinf := rfl
@[simp] theorem ninf_add_fin (a : ℝ) : ninf + fin a = ninf := rfl
@[simp] theorem fin_add_pinf (a : ℝ) : fin a + pinf = pinf := rfl
@[simp] theorem fin_add_ninf (a : ℝ) : fin a + ninf = ninf := rfl
@[simp] theorem pinf_add_pinf : pinf + pinf = pinf := rfl
@[simp] theorem ninf_add_ninf : ninf + ninf = ninf := rfl
@[simp] theorem pinf_sub_pinf : pinf - pinf = nan := rfl
@[simp] theorem ninf_sub_ninf : ninf - ninf = nan := rfl
@[simp] theorem pinf_sub_ninf : pinf - ninf = pinf := rfl
@[simp] theorem ninf_sub_pinf : ninf - pinf = ninf := rfl
@[simp] theorem pinf_mul_pinf : pinf * pinf = pinf := rfl
@[simp] theorem ninf_mul_ninf : ninf * ninf = pinf := rfl
@[simp] theorem pinf_mul_ninf : pinf * ninf = ninf := rfl
@[simp] theorem ninf_mul_pinf : ninf * pinf = ninf := rfl
theorem pinf_mul_fin {a : ℝ} (h : 0 < a) : pinf * fin a = pinf := by change infSign a = _; rw [infSign, if_neg h.ne', if_pos h]
theorem pinf_mul_neg {a : ℝ} (h : a < 0) : pinf * fin a = ninf := by change infSign a = _; rw [infSign, if_neg h.ne, if_neg h.le.not_gt]
theorem ninf_mul_fin {a : ℝ} (h : 0 < a) : ninf * fin a = ninf := by change infSign (-a) = _; rw [infSign, if_neg (by linarith), if_neg (by linarith)]
theorem fin_mul_pinf {a : ℝ} (h : 0 < a) : fin a * pinf = pinf := pinf_mul_fin h
theorem fin_mul_ninf {a : ℝ} (h : 0 < a) : fin a * ninf = ninf := ninf_mul_fin h
@[simp] theorem zero_mul_pinf : fin 0 * pinf = nan := by change infSign 0 = _; rw [infSign, if_pos rfl]
@[simp] theorem zero_mul_ninf : fin 0 * ninf = nan := by change infSign (-0) = _; rw [infSign, if_pos neg_zero]
@[simp] theorem fin_div_pinf (a : ℝ) : fin a / pinf = fin 0 := rfl
@[simp] theorem pinf_div_pinf : pinf / pinf = nan := rfl
@[simp] theorem ninf_div_pinf : ninf / pinf = nan := rfl
theorem pinf_div_fin {a : ℝ} (h : 0 ≤ a) : pinf / fin a = pinf := by change (if a < 0 then _ else _) = _; rw [if_neg h.not_gt]
theorem ninf_div_fin {a : ℝ} (h : 0 ≤ a) : ninf / fin a = ninf := by change (if a < 0 then _ else _) = _; rw [if_neg h.not_gt]
@[simp] theorem pinf_sqrt : pinf.sqrt = pinf := rfl
@[simp] theorem not_pinf_le (a : ℝ) : ¬ le pinf (fin a) := id
@[simp] theorem fin_le_pinf (a : ℝ) : le (fin a) pinf := trivial
@[simp] theorem ninf_le_fin (a : ℝ) : le ninf (fin a) := trivial
@[simp] theorem not_fin_le_ninf (a : ℝ) : ¬ le (fin a) ninf := id
@[simp] theorem not_pinf_lt (a : XF) : ¬ lt pinf a := by cases a <;> exact id
@[simp] theorem fin_lt_pinf (a : ℝ) : lt (fin a) pinf := trivial
@[simp] theorem ninf_lt_fin (a : ℝ) : lt ninf (fin a) := trivial
@[simp] theorem not_fin_lt_ninf (a : ℝ) : ¬ lt (fin a) ninf := id
@[simp] theorem pinf_npmax (a : ℝ) : npmax pinf (fin a) = pinf := by simp [npmax]
@[simp] theorem ninf_npmax (a : ℝ) : npmax ninf (fin a) = fin a := by simp [npmax]
@[simp] theorem npmax_pinf (a : ℝ) : npmax (fin a) pinf = pinf := by simp [npmax]
@[simp] theorem pinf_pymax (a : ℝ) : pymax pinf (fin a) = pinf := by simp [pymax]

/-- The square root of a number is a number or NaN. -/
theorem sqrt_fin_cases (a : ℝ) : sqrt (fin a) = nan ∨ ∃ b, sqrt (fin a) = fin b := by
  rw [sqrt]; split_ifs
  exacts [.inl rfl, .inr ⟨_, rfl⟩]

/-- A sum of terms that are not `-inf` and one of which is `inf` is `inf` or NaN; with no NaN it is `inf`. -/
theorem sum_pinf {s : Finset ι} {f : ι → XF} (hf : ∀ i ∈ s, f i = pinf ∨ ∃ r, f i = fin r) (h : ∃ i ∈ s, f i = pinf) : ∑ i ∈ s, f i = pinf := by
  induction s using Finset.induction_on with
  | empty => simp at h
  | insert a s ha ih =>
    rw [Finset.sum_insert ha]
    by_cases hs : ∃ i ∈ s, f i = pinf
    · rw [ih (fun i hi => hf i (Finset.mem_insert_of_mem hi)) hs]
      rcases hf a (Finset.mem_insert_self _ _) with h1 | ⟨r, h1⟩ <;> rw [h1] <;> rfl
    · have hfa : f a = pinf := by
        obtain ⟨i, hi, h1⟩ := h
        rcases Finset.mem_insert.1 hi with rfl | hi
        exacts [h1, absurd ⟨i, hi, h1⟩ hs]
      have hfin : ∀ i ∈ s, ∃ r, f i = fin r := fun i hi => (hf i (Finset.mem_insert_of_mem hi)).resolve_left fun h1 => hs ⟨i, hi, h1⟩
      choose! r hr using hfin
      rw [hfa, Finset.sum_congr rfl hr, sum_fin]; rfl

end XF

/-- An array without NaN. -/
def NoNan (x : ι → XF) : Prop := ∀ i, x i ≠ nan

theorem mul_self_cases {a : XF} (h : a ≠ nan) : a * a = pinf ∨ ∃ r, a * a = fin r := by
  cases a with
  | fin r => exact .inr ⟨_, rfl⟩
  | pinf => exact .inl rfl
  | ninf => exact .inl rfl
  | nan => exact absurd rfl h

theorem xnorm_inf {x : ι → XF} (hx : NoNan x) {i : ι} (hi : x i = pinf ∨ x i = ninf) : xnorm x = pinf := by
  rw [xnorm, sum_pinf (fun j _ => mul_self_cases (hx j)) ⟨i, Finset.mem_univ i, by rcases hi with h | h <;> rw [h] <;> rfl⟩]; rfl

theorem softX_inf (t : ℝ) : softX pinf t = pinf ∧ softX ninf t = ninf := by
  constructor
  · simp [softX, pinf_mul_fin]
  · simp [softX, pinf_mul_neg]

/-- C105: operators that keep an infinite entry. -/
theorem C105_inf_kept (σ α μ k a γ δ : ℝ) (g : Option (Vec ι)) (hγ : 0 < γ) (ha : a ≠ 1) (hσ : 0 ≤ σ) :
    KeepsInf (L1X.prox σ g) ∧ KeepsInf (L0X.prox (ι := ι) σ) ∧ KeepsInf (L2X.prox (ι := ι) σ none none) ∧ KeepsInf (HuberX.prox (ι := ι) α) ∧ KeepsInf (eachX (ι := ι) (scadProxX σ a))
      ∧ KeepsInf (eachX (ι := ι) (qecProxX μ)) ∧ KeepsInf (eachX (ι := ι) (rmsProxX σ k)) ∧ KeepsInf (eachX (ι := ι) (logProxX σ γ)) ∧ KeepsInf (eachX (ι := ι) (log1ProxX σ δ)) := by
  refine ⟨?_, ?_, ?_, ?_, ?_, ?_, ?_, ?_, ?_⟩
  · have hp : ∀ x τ, L1X.prox σ g x τ = checkTau τ (.ok fun i => (match g with | none => softX (x i) (τ * σ) | some g => softX (x i - fin (g i)) (τ * σ) + fin (g i))) := fun _ _ => rfl
    cases g with
    | none => exact keepsInf_each (P := fun _ τ z => softX z (τ * σ)) hp fun _ _ _ => softX_inf _
    | some g => exact keepsInf_each (P := fun i τ z => softX (z - fin (g i)) (τ * σ) + fin (g i)) hp fun _ _ _ => by simp [softX_inf]
  · exact keepsInf_each (P := fun _ τ z => if le z.abs (fin (τ * σ)) then fin 0 else z) (fun _ _ => rfl) fun _ _ _ => by simp
  · exact keepsInf_each (P := fun _ τ z => z / fin (1 + τ * σ)) (fun _ _ => rfl) fun _ τ hτ =>
      ⟨pinf_div_fin (by positivity), ninf_div_fin (by positivity)⟩
  · exact keepsInf_each (P := fun _ τ z => if lt (fin α) z.abs then softX z (τ * 1) else z / fin (1 + τ * (1 / α))) (fun _ _ => rfl) fun _ _ _ => by
      simp [softX_inf]
  · refine keepsInf_each (P := fun _ τ z => scadProxX σ a τ z) (fun _ _ => rfl) fun _ τ _ => ?_
    have h1 : fin (σ * (a - 1 - τ + τ * a)) / fin (a - 1) = fin (σ * (a - 1 - τ + τ * a) / (a - 1)) := fin_div' (sub_ne_zero.2 ha) _
    simp [scadProxX, h1]
  · refine keepsInf_each (P := fun _ τ z => qecProxX μ τ z) (fun _ _ => rfl) fun _ τ _ => ?_
    have h1 : pinf * fin (-1) = ninf := pinf_mul_neg (by norm_num)
    simp [qecProxX, h1, pinf_mul_fin]
  · refine keepsInf_each (P := fun _ τ z => rmsProxX σ k τ z) (fun _ _ => rfl) fun _ τ _ => ?_
    rcases sqrt_fin_cases (k / σ * (1 + 2 * τ * σ)) with h | ⟨b, h⟩ <;> simp [rmsProxX, h]
  · refine keepsInf_each (P := fun _ τ z => logProxX σ γ τ z) (fun _ _ => rfl) fun _ τ _ => ?_
    have hl : 0 < Real.log (γ + 1) := Real.log_pos (by linarith)
    have h1 : log (fin (γ + 1)) = fin (Real.log (γ + 1)) := fin_log (by linarith)
    have h0 : logElemX σ γ (fin 0) = fin 0 := by
      simp [logElemX, h1, fin_div' hl.ne', fin_log]
    have h2 : pinf * fin (-1) = ninf := pinf_mul_neg (by norm_num)
    constructor <;> simp [logProxX, h1, fin_div' hl.ne', fin_mul_pinf hγ, fin_mul_ninf (show 0 < 4 * γ by positivity), pinf_div_fin (show 0 ≤ 2 * γ by positivity), h0,
      pinf_div_fin (show (0 : ℝ) ≤ 2 by norm_num), argminSecond, pinf_mul_fin, h2]
  · refine keepsInf_each (P := fun _ τ z => log1ProxX σ δ τ z) (fun _ _ => rfl) fun _ τ hτ => ?_
    have h1 : sqrt (fin (2 * (σ * τ))) = fin √(2 * (σ * τ)) := fin_sqrt (by positivity)
    constructor <;> simp [log1ProxX, h1, fin_mul_pinf (show (0 : ℝ) < 0.5 by norm_num), fin_mul_ninf (show (0 : ℝ) < 0.5 by norm_num)]

/-- C105, refutation: `ETP` and `Geman` compare `inf - inf`, which is NaN, and return zero for an infinite entry. -/
theorem C105_inf_lost_refuted (lambertw : ℝ → ℝ) (σ γ : ℝ) (hγ : 0 < γ) :
    ErasesInf (eachX (ι := ι) (etpProxX lambertw σ γ)) ∧ ErasesInf (eachX (ι := ι) (gemanProxX σ γ)) := by
  constructor <;> intro x τ i hτ hx <;> refine ⟨_, checkTau_pos hτ _, ?_⟩
  · have h1 : ∀ A : XF, A + pinf - pinf = nan := fun A => by cases A <;> rfl
    have h2 : ∀ A : XF, A + ninf - ninf = nan := fun A => by cases A <;> rfl
    rcases hx with hx | hx
    · simp only [hx, etpProxX, h1]; simp
    · simp only [hx, etpProxX, h2]; simp
  · have h2 : 0 < 2 * γ := by positivity
    have h3 : 0 < γ ^ 2 := by positivity
    have h9 : fin 9 * ninf = ninf := fin_mul_ninf (by norm_num)
    rcases hx with hx | hx <;>
    · simp only [hx, gemanProxX]
      simp [fin_mul_pinf h2, fin_mul_pinf h3, fin_mul_ninf (show (0 : ℝ) < 2 by norm_num), h9, fin_mul_ninf (show (0 : ℝ) < 27 by norm_num),
        pinf_div_fin (show (0 : ℝ) ≤ 3 by norm_num), pinf_div_fin (show (0 : ℝ) ≤ 27 by norm_num), ninf_div_fin (show (0 : ℝ) ≤ 27 by norm_num), pinf_div_fin (show (0 : ℝ) ≤ 4 by norm_num)]

/-- C105: `Euclidean.prox` leaves an array with an infinite entry and no NaN as it is (up to the finite scaling by one). -/
theorem C105_euclidean_inf (σ : ℝ) {x : ι → XF} (hx : NoNan x) {i : ι} (hi : x i = pinf ∨ x i = ninf) {τ : ℝ} (hτ : 0 < τ) : EuclideanX.prox σ x τ = .ok x := by
  rw [EuclideanX.prox, checkTau_pos hτ, xnorm_inf hx hi, pinf_pymax]
  simp only [pyDivX, fin_div_pinf, Bind.bind, Except.bind, Pure.pure, Except.pure, fin_sub', sub_zero, Except.ok.injEq]
  funext j
  cases h : x j with
  | fin r => simp
  | pinf => exact fin_mul_pinf one_pos
  | ninf => exact fin_mul_ninf one_pos
  | nan => exact absurd h (hx j)

/-- C105, refutation: the projection on a ball and the dual prox of the Euclidean norm divide `inf` by `inf` (or multiply it by zero): an array with an infinite entry gets a NaN there, and its finite
entries become the centre of the ball or zero. -/
theorem C105_inf_to_nan_refuted (center : Vec ι) (radius σ : ℝ) (hσ : 0 < σ) {x : ι → XF} (hx : NoNan x) {i : ι} (hi : x i = pinf ∨ x i = ninf) {τ : ℝ} (hτ : 0 < τ) :
    (∃ y, EuclideanBallX.prox center radius x τ = .ok y ∧ y i = nan ∧ ∀ j, (x j).IsFin → y j = fin (center j))
      ∧ ∃ y, EuclideanX.proxdual σ x τ = .ok y ∧ y i = nan ∧ ∀ j, (x j).IsFin → y j = fin 0 := by
  constructor
  · have hn : NoNan fun j => x j - fin (center j) := fun j h => by
      have := hx j
      cases hj : x j <;> simp [hj] at h this
    have hi' : x i - fin (center i) = pinf ∨ x i - fin (center i) = ninf := by rcases hi with h | h <;> simp [h]
    rw [EuclideanBallX.prox, checkTau_pos hτ, xnorm_inf hn hi', pinf_pymax]
    simp only [pyDivX, fin_div_pinf, Bind.bind, Except.bind, Pure.pure, Except.pure]
    refine ⟨_, rfl, ?_, fun j hj => ?_⟩
    · rcases hi with h | h <;> simp [h]
    · cases h : x j <;> simp [h, IsFin] at hj ⊢
  · rw [EuclideanX.proxdual, checkTau_pos hτ, xnorm_inf hx hi, pinf_pymax]
    refine ⟨_, rfl, ?_, fun j hj => ?_⟩
    · rcases hi with h | h <;> simp [h, fin_mul_pinf hσ, fin_mul_ninf hσ]
    · cases h : x j <;> simp [h, IsFin] at hj ⊢

/-- C105, refutation: `L21_plus_L1` turns an infinite entry into NaN (`inf / inf` is replaced by zero, and zero times `inf` is NaN). -/
theorem C105_l21plusl1_inf_refuted (σ ρ : ℝ) {x : ι × κ → XF} {ij : ι × κ} (h : x ij = pinf ∨ x ij = ninf) {τ : ℝ} (hτ : 0 < τ) : ∃ y, L21plusL1X.prox σ ρ x τ = .ok y ∧ y ij = nan := by
  refine ⟨_, checkTau_pos hτ _, ?_⟩
  rcases h with h | h <;> simp [l1X, h, nanToNum]

/-- C105: `Box` sends an infinite entry to the bound on that side, and leaves it when there is none. -/
theorem C105_box_inf (lower upper : ι → Bound) (hl : ∀ i l u, lower i = some l → upper i = some u → l ≤ u) {x : ι → XF} {τ : ℝ} (hτ : 0 < τ) :
    ∃ y, BoxX.prox lower upper x τ = .ok y ∧ ∀ i, (x i = pinf → y i = upperX (upper i)) ∧ (x i = ninf → y i = lowerX (lower i)) := by
  refine ⟨_, checkTau_pos hτ _, fun i => ⟨fun h => ?_, fun h => ?_⟩⟩
  · simp only [h]
    cases lower i <;> cases upper i <;> simp [lowerX, upperX, npmax, npmin, le]
  · simp only [h]
    cases hL : lower i <;> cases hU : upper i
    · simp [lowerX, upperX, npmax, npmin, le]
    · simp [lowerX, upperX, npmax, npmin, le]
    · simp [lowerX, upperX, npmax, npmin, le]
    · simp only [lowerX, upperX]
      rw [ninf_npmax, fin_npmin, min_eq_left (hl i _ _ hL hU)]

/-! ## Solvers -/

/-- The operator on floats computes what the real operator computes. -/
def AgreesOp (fx : XOp ι) (f : ProxOp (Vec ι)) : Prop :=
  (∀ x τ y, f.prox x τ = .ok y → fx.prox (liftX x) τ = .ok (liftX y)) ∧ ∀ x v, f.call x = .ok v → fx.call (liftX x) = .ok (fin v.toReal)

lemma forRange_okSim {σ σ' : Type} {b1 : ℕ → σ → Py (σ × Bool)} {b2 : ℕ → σ' → Py (σ' × Bool)} {R : σ → σ' → Prop}
    (h : ∀ i s t s' b, R s t → b1 i s = .ok (s', b) → ∃ t', b2 i t = .ok (t', b) ∧ R s' t') :
    ∀ n i s t r, R s t → forRange b1 n i s = .ok r → ∃ r', forRange b2 n i t = .ok r' ∧ R r r' := by
  intro n
  induction n with
  | zero => intro i s t r hR hr; simp only [forRange] at hr; cases hr; exact ⟨t, rfl, hR⟩
  | succ n ih =>
    intro i s t r hR hr
    simp only [forRange] at hr ⊢
    cases hb : b1 i s with
    | error e => rw [hb] at hr; cases hr
    | ok p =>
      obtain ⟨s', b⟩ := p
      obtain ⟨t', ht, hR'⟩ := h i s t s' b hR hb
      rw [hb] at hr
      rw [ht]
      cases b with
      | true => simp only [if_true] at hr ⊢; cases hr; exact ⟨t', rfl, hR'⟩
      | false => exact ih (i + 1) s' t' r hR' hr

/-- C105: a run of `ProximalPoint` on floats that starts from a finite array is the run of the real model, as long as that one succeeds: same iterates, same stop. -/
theorem C105_proximalPoint_agrees {fx : XOp ι} {f : ProxOp (Vec ι)} (h : AgreesOp fx f) (x0 : Vec ι) (τ : ℝ) (niter : ℕ) (tol : Option ℝ) {r : PPState (Vec ι)}
    (hr : ProximalPoint f x0 τ niter tol = .ok r) : ∃ rx, ProximalPointX fx (liftX x0) τ niter tol = .ok rx ∧ rx.x = liftX r.x ∧ rx.log = r.log.map liftX := by
  have hR := forRange_okSim (b1 := ProximalPoint.body f τ tol) (b2 := ProximalPointX.body fx τ tol)
    (R := fun s t => t.x = liftX s.x ∧ t.log = s.log.map liftX ∧ t.pf = (match s.pf with | none => pinf | some v => fin v)) ?_ niter 0 ⟨x0, none, []⟩ ⟨liftX x0, pinf, []⟩ r ⟨rfl, rfl, rfl⟩ hr
  · obtain ⟨r', h1, h2, h3, _⟩ := hR
    exact ⟨r', h1, h2, h3⟩
  · rintro i s t s' b ⟨h1, h2, h3⟩ hb
    rw [ProximalPoint.body] at hb
    cases hp : f.prox s.x τ with
    | error e => rw [hp] at hb; cases hb
    | ok y =>
      rw [hp] at hb
      have hpx : fx.prox t.x τ = .ok (liftX y) := by rw [h1]; exact h.1 _ _ _ hp
      cases tol with
      | none =>
        cases hb
        refine ⟨⟨liftX y, t.pf, t.log ++ [liftX y]⟩, ?_, rfl, by simp [h2], h3⟩
        rw [ProximalPointX.body, hpx]; rfl
      | some tl =>
        simp only [Bind.bind, Except.bind] at hb
        cases hv : f.call y with
        | error e => rw [hv] at hb; cases hb
        | ok v =>
          rw [hv] at hb
          simp only at hb
          cases hq : pyRatio v.toReal s.pf with
          | error e => rw [hq] at hb; cases hb
          | ok q =>
            rw [hq] at hb
            cases hb
            have hd : pyDivX (fin v.toReal) t.pf = .ok (fin q) := by
              rw [h3]
              cases hs : s.pf with
              | none => rw [hs] at hq; cases hq; rfl
              | some w =>
                rw [hs, pyRatio] at hq
                simp only [pyDivX]
                split_ifs at hq ⊢ with hw
                cases hq
                rw [fin_div' hw]
            refine ⟨⟨liftX y, fin v.toReal, t.log ++ [liftX y]⟩, ?_, rfl, by simp [h2], rfl⟩
            rw [ProximalPointX.body, hpx]
            simp only [Bind.bind, Except.bind, h.2 _ _ hv, stopX, hd, Pure.pure, Except.pure, fin_sub', fin_abs, fin_lt]

/-- C105: the same for `ADMM`. -/
theorem C105_admm_agrees {fx gx : XOp ι} {f g : ProxOp (Vec ι)} (hf : AgreesOp fx f) (hg : AgreesOp gx g) (x0 : Vec ι) (τ : ℝ) (niter : ℕ) {r : SplitState (Vec ι)}
    (hr : ADMM f g (some x0) none τ niter false = .ok r) :
    ∃ rx, ADMMX fx gx (liftX x0) τ niter = .ok rx ∧ rx.x = liftX r.x ∧ rx.z = liftX r.z ∧ rx.u = liftX r.u ∧ rx.log = r.log.map fun p => (liftX p.1, liftX p.2) := by
  refine forRange_okSim (b1 := ADMM.body f g τ false) (b2 := ADMMX.body fx gx τ)
    (R := fun s t => t.x = liftX s.x ∧ t.z = liftX s.z ∧ t.u = liftX s.u ∧ t.log = s.log.map fun p => (liftX p.1, liftX p.2)) ?_ niter 0 ⟨x0, x0, 0, []⟩ ⟨liftX x0, liftX x0, fun _ => fin 0, []⟩ r
    ⟨rfl, rfl, rfl, rfl⟩ hr
  rintro i s t s' b ⟨h1, h2, h3, h4⟩ hb
  rw [ADMM.body, if_neg Bool.false_ne_true] at hb
  cases hp : f.prox (s.z - s.u) τ with
  | error e => rw [hp] at hb; cases hb
  | ok x =>
    rw [hp] at hb
    simp only [Bind.bind, Except.bind] at hb
    cases hq : g.prox (x + s.u) τ with
    | error e => rw [hq] at hb; cases hb
    | ok z =>
      rw [hq] at hb
      cases hb
      have hpx := hf.1 _ _ _ hp
      have hqx := hg.1 _ _ _ hq
      have e1 : (fun i => t.z i - t.u i) = liftX (s.z - s.u) := by rw [h2, h3]; funext i; exact fin_sub' _ _
      have e2 : (fun i => liftX x i + t.u i) = liftX (x + s.u) := by rw [h3]; rfl
      refine ⟨⟨liftX x, liftX z, liftX (s.u + x - z), t.log ++ [(liftX x, liftX z)]⟩, ?_, rfl, rfl, rfl, by simp [h4]⟩
      rw [ADMMX.body, e1, hpx]
      simp only [Bind.bind, Except.bind]
      rw [e2, hqx, h3]
      simp only [Pure.pure, Except.pure, Except.ok.injEq, Prod.mk.injEq, SplitState.mk.injEq, true_and, and_true]
      funext i
      exact fin_sub' _ _

/-- C105: the same for `DouglasRachfordSplitting`. -/
theorem C105_dr_agrees {fx gx : XOp ι} {f g : ProxOp (Vec ι)} (hf : AgreesOp fx f) (hg : AgreesOp gx g) (x0 : Vec ι) (τ η : ℝ) (niter : ℕ) {x y : Vec ι} {log : List (Vec ι × Vec ι)}
    (hr : DouglasRachford f g x0 τ η niter false = .ok (x, y, log)) :
    ∃ rx, DRX fx gx (liftX x0) τ η niter = .ok rx ∧ rx.x = some (liftX x) ∧ rx.y = liftX y ∧ rx.log = log.map fun p => (liftX p.1, liftX p.2) := by
  rw [DouglasRachford] at hr
  cases hs : forRange (DR.body f g τ η false) niter 0 ⟨none, x0, []⟩ with
  | error e => rw [hs] at hr; cases hr
  | ok s =>
    rw [hs] at hr
    have := forRange_okSim (b1 := DR.body f g τ η false) (b2 := DRX.body fx gx τ η)
      (R := fun s t => t.x = s.x.map liftX ∧ t.y = liftX s.y ∧ t.log = s.log.map fun p => (liftX p.1, liftX p.2)) ?_ niter 0 ⟨none, x0, []⟩ ⟨none, liftX x0, []⟩ s ⟨rfl, rfl, rfl⟩ hs
    · obtain ⟨rx, h0, h1, h2, h3⟩ := this
      simp only [Bind.bind, Except.bind] at hr
      cases hx : s.x with
      | none => rw [hx] at hr; cases hr
      | some x' =>
        rw [hx] at hr h1
        cases hr
        exact ⟨rx, h0, h1, h2, h3⟩
    · rintro i s t s' b ⟨h1, h2, h3⟩ hb
      rw [DR.body, if_neg Bool.false_ne_true] at hb
      cases hp : f.prox s.y τ with
      | error e => rw [hp] at hb; cases hb
      | ok x =>
        rw [hp] at hb
        simp only [Bind.bind, Except.bind] at hb
        cases hq : g.prox ((2 : ℝ) • x - s.y) τ with
        | error e => rw [hq] at hb; cases hb
        | ok z =>
          rw [hq] at hb
          cases hb
          have hpx := hf.1 _ _ _ hp
          have hqx := hg.1 _ _ _ hq
          have e2 : (fun i => fin 2 * liftX x i - t.y i) = liftX ((2 : ℝ) • x - s.y) := by rw [h2]; funext i; exact fin_sub' _ _
          refine ⟨⟨some (liftX x), liftX (s.y + η • (z - x)), t.log ++ [(liftX x, liftX (s.y + η • (z - x)))]⟩, ?_, rfl, rfl, by simp [h3]⟩
          have e3 : (fun i => t.y i + fin η * (liftX z i - liftX x i)) = liftX (s.y + η • (z - x)) := by
            rw [h2]; funext i
            show fin _ + fin η * (fin _ - fin _) = _
            rw [fin_sub']; rfl
          rw [DRX.body, h2, hpx]
          simp only [Bind.bind, Except.bind]
          rw [← h2, e2, hqx]
          simp only [Pure.pure, Except.pure, e3]

omit [Fintype ι] in
/-- C105: a NaN in the starting point of `ProximalPoint` stays in every iterate if the operator keeps it, and no tolerance stops the run. -/
theorem C105_proximalPoint_nan {f : XOp ι} (hf : KeepsNan f.prox) (hc : ∀ x i, x i = nan → f.call x = .ok nan) {x0 : ι → XF} {i : ι} (h0 : x0 i = nan) {τ : ℝ} (hτ : 0 < τ) (niter : ℕ) (tol : Option ℝ) :
    ∃ r, ProximalPointX f x0 τ niter tol = .ok r ∧ r.log.length = niter ∧ r.x i = nan ∧ ∀ y ∈ r.log, y i = nan := by
  obtain ⟨T, hT0, hG, hR, hT⟩ := forRange_traj_nobreak (ProximalPointX.body f τ tol) (fun s => s.x i = nan ∧ (s.pf = pinf ∨ s.pf = nan) ∧ ∀ y ∈ s.log, y i = nan)
    (fun _ s s' => s'.log.length = s.log.length + 1) (fun k s ⟨h1, h2, h3⟩ => by
      obtain ⟨y, hy, hyi⟩ := hf s.x τ i hτ h1
      have hl : ∀ z ∈ s.log ++ [y], z i = nan := fun z hz => by
        rcases List.mem_append.1 hz with hz | hz
        · exact h3 z hz
        · rw [List.mem_singleton.1 hz]; exact hyi
      cases tol with
      | none => exact ⟨⟨y, s.pf, s.log ++ [y]⟩, by rw [ProximalPointX.body, hy]; rfl, ⟨hyi, h2, hl⟩, by simp⟩
      | some t =>
        refine ⟨⟨y, nan, s.log ++ [y]⟩, ?_, ⟨hyi, .inr rfl, hl⟩, by simp⟩
        have hd : pyDivX nan s.pf = .ok nan := by rcases h2 with h | h <;> rw [h] <;> rfl
        rw [ProximalPointX.body, hy]
        simp only [Bind.bind, Except.bind, hc y i hyi, stopX, hd, Pure.pure, Except.pure, sub_nan, nan_abs, nan_lt, decide_false]) ⟨x0, pinf, []⟩
    ⟨h0, .inl rfl, by simp⟩
  refine ⟨T niter, hT niter, ?_, (hG niter).1, (hG niter).2.2⟩
  induction niter with
  | zero => rw [hT0]; rfl
  | succ n ih => rw [hR, ih]

omit [Fintype ι] in
/-- C105: once `z` or `u` has a NaN at an entry, all later iterates of `ADMM` have it there, if both operators keep NaN. -/
theorem C105_admm_nan {f g : XOp ι} (hf : KeepsNan f.prox) (hg : KeepsNan g.prox) {i : ι} {τ : ℝ} (hτ : 0 < τ) (n k : ℕ) (s : SplitState (ι → XF)) (hs : s.z i = nan ∨ s.u i = nan) :
    ∃ r, forRange (ADMMX.body f g τ) n k s = .ok r ∧ ∃ l, r.log = s.log ++ l ∧ l.length = n ∧ ∀ p ∈ l, p.1 i = nan ∧ p.2 i = nan := by
  induction n generalizing k s with
  | zero => exact ⟨s, rfl, [], by simp, rfl, by simp⟩
  | succ n ih =>
    obtain ⟨x, hx, hxi⟩ := hf (fun j => s.z j - s.u j) τ i hτ (by rcases hs with h | h <;> simp [h])
    obtain ⟨z, hz, hzi⟩ := hg (fun j => x j + s.u j) τ i hτ (by simp [hxi])
    obtain ⟨r, hr, l, hl, hn, hall⟩ := ih (k + 1) ⟨x, z, fun j => s.u j + x j - z j, s.log ++ [(x, z)]⟩ (.inl hzi)
    refine ⟨r, ?_, (x, z) :: l, by rw [hl]; simp, by simp [hn], ?_⟩
    · have : ADMMX.body f g τ k s = .ok (⟨x, z, fun j => s.u j + x j - z j, s.log ++ [(x, z)]⟩, false) := by
        rw [ADMMX.body, hx]
        simp only [Bind.bind, Except.bind, hz, Pure.pure, Except.pure]
      simp only [forRange, this]
      exact hr
    · intro p hp
      rcases List.mem_cons.1 hp with rfl | hp
      exacts [⟨hxi, hzi⟩, hall p hp]

omit [Fintype ι] in
/-- C105: the same for `DouglasRachfordSplitting` and `y`. -/
theorem C105_dr_nan {f g : XOp ι} (hf : KeepsNan f.prox) (hg : KeepsNan g.prox) {i : ι} {τ : ℝ} (hτ : 0 < τ) (η : ℝ) (n k : ℕ) (s : DRState (ι → XF)) (hs : s.y i = nan) :
    ∃ r, forRange (DRX.body f g τ η) n k s = .ok r ∧ ∃ l, r.log = s.log ++ l ∧ l.length = n ∧ ∀ p ∈ l, p.1 i = nan ∧ p.2 i = nan := by
  induction n generalizing k s with
  | zero => exact ⟨s, rfl, [], by simp, rfl, by simp⟩
  | succ n ih =>
    obtain ⟨x, hx, hxi⟩ := hf s.y τ i hτ hs
    obtain ⟨z, hz, _⟩ := hg (fun j => fin 2 * x j - s.y j) τ i hτ (by simp [hs])
    have hy : s.y i + fin η * (z i - x i) = nan := by simp [hs]
    obtain ⟨r, hr, l, hl, hn, hall⟩ := ih (k + 1) ⟨some x, fun j => s.y j + fin η * (z j - x j), s.log ++ [(x, fun j => s.y j + fin η * (z j - x j))]⟩ hy
    refine ⟨r, ?_, (x, fun j => s.y j + fin η * (z j - x j)) :: l, by rw [hl]; simp, by simp [hn], ?_⟩
    · have : DRX.body f g τ η k s = .ok (⟨some x, fun j => s.y j + fin η * (z j - x j), s.log ++ [(x, fun j => s.y j + fin η * (z j - x j))]⟩, false) := by
        rw [DRX.body, hx]
        simp only [Bind.bind, Except.bind, hz, Pure.pure, Except.pure]
      simp only [forRange, this]
      exact hr
    · intro p hp
      rcases List.mem_cons.1 hp with rfl | hp
      exacts [⟨hxi, hy⟩, hall p hp]

/-- An array with its NaN replaced by zeros. -/
noncomputable def nanZero (x : ι → XF) : ι → XF := fun i => if x i = nan then fin 0 else x i

/-- C105, refutation: with `ETP` as first operator, `ADMM` started from an array with NaN makes exactly the iterates of the run started from the array with zeros in their place: data that is not a number goes
unnoticed. -/
theorem C105_admm_hides_nan_refuted (lambertw : ℝ → ℝ) (σ γ : ℝ) (hγ : 0 < γ) (call : (ι → XF) → Py XF) (g : XOp ι) (x0 : ι → XF) (τ : ℝ) (n : ℕ) :
    (ADMMX ⟨call, eachX (etpProxX lambertw σ γ)⟩ g x0 τ n).map (·.log) = (ADMMX ⟨call, eachX (etpProxX lambertw σ γ)⟩ g (nanZero x0) τ n).map (·.log) := by
  have h0 : etpProxX lambertw σ γ τ (fin 0) = fin 0 := by
    have hg : γ ≠ 0 := hγ.ne'
    have he : 1 - Real.exp (-γ) ≠ 0 := by
      have := Real.exp_lt_exp.2 (neg_neg_of_pos hγ)
      rw [Real.exp_zero] at this
      linarith
    have hs : npsign 0 = 0 := by simp [npsign]
    simp [etpProxX, etpElemX, hs, lambertX, fin_div' hg, fin_div' he, fin_div' (two_ne_zero (α := ℝ))]
  have hn : etpProxX lambertw σ γ τ nan = fin 0 := by simp [etpProxX]
  have hz : ∀ z : XF, z - fin 0 = z := fun z => by cases z <;> simp
  have key : eachX (etpProxX lambertw σ γ) (fun i => x0 i - fin 0) τ = eachX (etpProxX lambertw σ γ) (fun i => nanZero x0 i - fin 0) τ := by
    have : (fun i => etpProxX lambertw σ γ τ (x0 i - fin 0)) = fun i => etpProxX lambertw σ γ τ (nanZero x0 i - fin 0) := by
      funext i
      rw [hz, hz, nanZero]
      split_ifs with h
      · rw [h, hn, h0]
      · rfl
    rw [eachX, eachX, this]
  cases n with
  | zero => rfl
  | succ n =>
    rw [ADMMX, ADMMX]
    simp only [forRange]
    have hb : ADMMX.body ⟨call, eachX (etpProxX lambertw σ γ)⟩ g τ 0 ⟨x0, x0, fun _ => fin 0, []⟩ = ADMMX.body ⟨call, eachX (etpProxX lambertw σ γ)⟩ g τ 0 ⟨nanZero x0, nanZero x0, fun _ => fin 0, []⟩ := by
      rw [ADMMX.body, ADMMX.body]
      simp only [key]
    rw [hb]

/-! ## The hypotheses are met -/

/-- `L1` on floats. -/
noncomputable def L1X.op (σ : ℝ) : XOp ι := ⟨fun x => .ok (L1X.call σ none x), L1X.prox σ none⟩

theorem L1X.op_agrees (σ : ℝ) : AgreesOp (L1X.op (ι := ι) σ) (L1 σ none) := by
  constructor
  · intro x τ y hy
    have := C105_l1_agrees σ none x τ
    rwa [hy] at this
  · intro x v hv
    have := C105_l1_call_agrees σ none x
    rw [hv] at this
    exact congrArg Except.ok this

theorem L1X.op_call_nan (σ : ℝ) (x : ι → XF) (i : ι) (h : x i = nan) : (L1X.op σ).call x = .ok nan := by
  simp only [L1X.op, L1X.call]
  rw [sum_nan Finset.univ _ (Finset.mem_univ i) (by rw [h, nan_abs]), mul_nan]

/-- A run of `ProximalPoint` on the L1 norm with a tolerance, from an array with NaN. -/
example (x0 : Fin 3 → XF) (h : x0 1 = nan) : ∃ r, ProximalPointX (L1X.op 1) x0 1 7 (some 0.1) = .ok r ∧ r.log.length = 7 ∧ r.x 1 = nan :=
  let ⟨r, h1, h2, h3, _⟩ := C105_proximalPoint_nan (f := L1X.op 1) (C105_nan_kept 1 1 1 1 1 1 none none none (fun _ => none) fun _ => none).1.1 (L1X.op_call_nan 1) h one_pos 7 (some 0.1)
  ⟨r, h1, h2, h3⟩

/-- A run of `ADMM` on floats that is the real run. -/
example (x0 : Vec (Fin 3)) : ∃ rx r, ADMM (L1 1 none) (L1 2 none) (some x0) none 1 1 false = .ok r ∧ ADMMX (L1X.op 1) (L1X.op 2) (liftX x0) 1 1 = .ok rx ∧ rx.x = liftX r.x := by
  have h : ∃ r, ADMM (L1 1 none) (L1 2 none) (some x0) none 1 1 false = .ok r := by
    have hp : ∀ (σ : ℝ) (x : Vec (Fin 3)), ∃ y, (L1 σ none).prox x 1 = .ok y := fun σ x => ⟨_, checkTau_pos one_pos _⟩
    choose P hP using hp
    simp [ADMM, x0z0Init, forRange, ADMM.body, hP, Bind.bind, Except.bind, Pure.pure, Except.pure]
  obtain ⟨r, hr⟩ := h
  obtain ⟨rx, h1, h2, _⟩ := C105_admm_agrees (L1X.op_agrees 1) (L1X.op_agrees 2) x0 1 1 hr
  exact ⟨rx, r, hr, h1, h2⟩

/-- An infinite entry and no NaN. -/
example : NoNan (fun i : Fin 2 => if i = 0 then pinf else fin 3) := fun i => by fin_cases i <;> simp

/-- The test of `Simplex` accepts `[nan, 5]`. -/
example : SimplexX.call 1 0.001 (fun i : Fin 2 => if i = 0 then nan else fin 5) := by
  rw [C105_simplex_test_refuted 1 0.001 (i := 0) (by simp)]
  intro j
  fin_cases j <;> simp

end Verif
