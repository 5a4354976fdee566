import Verif.Props.CallbackEdit

/-!
# C125: accelerated `ProximalGradient` with callbacks that write
-/

open scoped RealInnerProductSpace

namespace Verif

variable {E : Type} [NormedAddCommGroup E] [InnerProductSpace ℝ E]

/-- The arrays of a run of `ProximalGradient` with a given step `τ`, weights `ε i`, extrapolation weights `ω i` and a callback that writes `edit i x` into `x`: `T` is the proximal gradient step.  The step is
taken from the extrapolated point, which was computed before the callback; the callback's edit is seen only as the old point of the next extrapolation. -/
def editedAccelRun (T : ℕ → E → E) (ω : ℕ → ℝ) (edit : ℕ → E → E) (x0 : E) : ℕ → E × E
  | 0 => (x0, x0)
  | n + 1 =>
    let p := editedAccelRun T ω edit x0 n
    (edit n (T n p.2), T n p.2 + ω n • (T n p.2 - p.1))

/-- The weights of FISTA: `t₀ = 1`, `tₙ₊₁ = (1 + sqrt(1 + 4 tₙ²))/2`. -/
noncomputable def fistaT : ℕ → ℝ
  | 0 => 1
  | n + 1 => (1 + √(1 + 4 * fistaT n ^ 2)) / 2

lemma accel_edit_run {f g : ProxOp E} {a : PGArgs} (ht : a.tol = none) {τ : ℝ} (heta : a.eta = 1) {ε : ℕ → ℝ} (hε : ∀ i, a.epsg.at i = .ok (ε i)) {T : ℕ → E → E}
    (hT : ∀ i y, (do let gy ← f.grad y; g.prox (y - τ • gy) (ε i * τ)) = .ok (T i y)) (edit : ℕ → E → E) {t ω : ℕ → ℝ} (hm : ∀ i, momentum a.acceleration i (t i) = (ω i, t (i + 1))) (x0 : E) (n : ℕ) :
    ∀ k : ℕ, ∀ s : PGState E, s.tau = τ → s.t = t k → (s.x, s.y) = editedAccelRun T ω edit x0 k →
      ∃ s', forRange (PGEdit.body f g a false edit) n k s = .ok s' ∧ (s'.x, s'.y) = editedAccelRun T ω edit x0 (k + n) ∧
        s'.log = s.log ++ (List.range' k n).map fun i => T i (editedAccelRun T ω edit x0 i).2 := by
  induction n with
  | zero => intro k s _ _ h; exact ⟨s, rfl, h, by simp⟩
  | succ n ih =>
    intro k s hs hst hxy
    have hT' := hT k s.y
    simp only [Bind.bind, Except.bind] at hT'
    cases hg : f.grad s.y with
    | error er => rw [hg] at hT'; cases hT'
    | ok gy =>
      rw [hg] at hT'
      have hT2 : g.prox (s.y - τ • gy) (ε k * τ) = .ok (T k s.y) := hT'
      have hb : PGEdit.body f g a false edit k s = .ok (⟨edit k (T k s.y), T k s.y + ω k • (T k s.y - s.x), t (k + 1), τ, s.pfg, s.log ++ [T k s.y]⟩, false) := by
        simp only [PGEdit.body, hε, PG.step, Bool.false_eq_true, if_false, if_pos heta, hg, hs, hT2, ht, hst, hm, Bind.bind, Except.bind, Pure.pure, Except.pure]
      have hx : s.x = (editedAccelRun T ω edit x0 k).1 := congrArg Prod.fst hxy
      have hy : s.y = (editedAccelRun T ω edit x0 k).2 := congrArg Prod.snd hxy
      obtain ⟨s', h1, h2, h3⟩ := ih (k + 1) ⟨edit k (T k s.y), T k s.y + ω k • (T k s.y - s.x), t (k + 1), τ, s.pfg, s.log ++ [T k s.y]⟩ rfl rfl (by
        simp only [editedAccelRun, hx, hy])
      refine ⟨s', ?_, ?_, ?_⟩
      · simp only [forRange, hb]; exact h1
      · rw [h2]; congr 1; omega
      · rw [h3, List.range'_succ, List.map_cons, hy]; simp

lemma pgEdit_accel {f g : ProxOp E} {a : PGArgs} (ht : a.tol = none) {τ : ℝ} (htau : a.tau = some τ) (hbt : a.backtracking = false) (heta : a.eta = 1) {ε : ℕ → ℝ} (hε : ∀ i, a.epsg.at i = .ok (ε i))
    (hn : 0 < a.niter) {T : ℕ → E → E} (hT : ∀ i y, (do let gy ← f.grad y; g.prox (y - τ • gy) (ε i * τ)) = .ok (T i y)) (edit : ℕ → E → E) (ha : a.acceleration ≠ .other) {t ω : ℕ → ℝ} (ht0 : t 0 = 1)
    (hm : ∀ i, momentum a.acceleration i (t i) = (ω i, t (i + 1))) (x0 : E) :
    ∃ s, PGEdit f g x0 a edit = .ok s ∧ (s.x, s.y) = editedAccelRun T ω edit x0 a.niter ∧ s.log = (List.range a.niter).map fun i => T i (editedAccelRun T ω edit x0 i).2 := by
  obtain ⟨s, h1, h2, h3⟩ := accel_edit_run ht heta hε hT edit hm x0 a.niter 0 ⟨x0, x0, 1, τ, none, []⟩ rfl ht0.symm rfl
  have hp : a.epsg.printCheck a.niter = .ok () := by
    unfold StepSpec.printCheck
    split
    · simp only [hn.ne', if_false]
    · simp only [hn.ne', if_false]
    · rfl
  refine ⟨s, ?_, by simpa using h2, by simpa [List.range_eq_range'] using h3⟩
  unfold PGEdit
  simp only [hp, Bind.bind, Except.bind, if_neg ha, htau, hbt]
  exact h1

/-- C125: `ProximalGradient` with the acceleration of FISTA and a callback that writes into `x`: every step starts from a point extrapolated before the callback was called, and the edit enters only as the old point
of the next extrapolation.  The callback is given the unedited points. -/
theorem C125_fista_steps (f g : ProxOp E) (x0 : E) (a : PGArgs) (ht : a.tol = none) {τ : ℝ} (htau : a.tau = some τ) (hbt : a.backtracking = false) (heta : a.eta = 1) (hacc : a.acceleration = .fista) {ε : ℕ → ℝ}
    (hε : ∀ i, a.epsg.at i = .ok (ε i)) (hn : 0 < a.niter) {T : ℕ → E → E} (hT : ∀ i y, (do let gy ← f.grad y; g.prox (y - τ • gy) (ε i * τ)) = .ok (T i y)) (edit : ℕ → E → E) :
    ∃ X Y : ℕ → E, X 0 = x0 ∧ Y 0 = x0 ∧
      (∀ n, X (n + 1) = edit n (T n (Y n)) ∧ Y (n + 1) = T n (Y n) + ((fistaT n - 1) / fistaT (n + 1)) • (T n (Y n) - X n)) ∧
      ∃ s, PGEdit f g x0 a edit = .ok s ∧ s.x = X a.niter ∧ s.log = (List.range a.niter).map fun i => T i (Y i) := by
  obtain ⟨s, h1, h2, h3⟩ := pgEdit_accel ht htau hbt heta hε hn hT edit (by rw [hacc]; simp) (t := fistaT) (ω := fun n => (fistaT n - 1) / fistaT (n + 1)) rfl (fun i => by rw [hacc]; rfl) x0
  exact ⟨fun n => (editedAccelRun T _ edit x0 n).1, fun n => (editedAccelRun T _ edit x0 n).2, rfl, rfl, fun n => ⟨rfl, rfl⟩, s, h1, congrArg Prod.fst h2, h3⟩

/-- C125: the same with `acceleration="vandenberghe"`, whose weights are `n / (n + 3)`. -/
theorem C125_vandenberghe_steps (f g : ProxOp E) (x0 : E) (a : PGArgs) (ht : a.tol = none) {τ : ℝ} (htau : a.tau = some τ) (hbt : a.backtracking = false) (heta : a.eta = 1) (hacc : a.acceleration = .vandenberghe)
    {ε : ℕ → ℝ} (hε : ∀ i, a.epsg.at i = .ok (ε i)) (hn : 0 < a.niter) {T : ℕ → E → E} (hT : ∀ i y, (do let gy ← f.grad y; g.prox (y - τ • gy) (ε i * τ)) = .ok (T i y)) (edit : ℕ → E → E) :
    ∃ X Y : ℕ → E, X 0 = x0 ∧ Y 0 = x0 ∧ (∀ n, X (n + 1) = edit n (T n (Y n)) ∧ Y (n + 1) = T n (Y n) + ((n : ℝ) / (n + 3)) • (T n (Y n) - X n)) ∧
      ∃ s, PGEdit f g x0 a edit = .ok s ∧ s.x = X a.niter ∧ s.log = (List.range a.niter).map fun i => T i (Y i) := by
  obtain ⟨s, h1, h2, h3⟩ := pgEdit_accel ht htau hbt heta hε hn hT edit (by rw [hacc]; simp) (t := fun _ => 1) (ω := fun n => (n : ℝ) / (n + 3)) rfl (fun i => by rw [hacc]; rfl) x0
  exact ⟨fun n => (editedAccelRun T _ edit x0 n).1, fun n => (editedAccelRun T _ edit x0 n).2, rfl, rfl, fun n => ⟨rfl, rfl⟩, s, h1, congrArg Prod.fst h2, h3⟩

/-- C125, refutation for accelerated runs: the edits are not added to the iterations, they push the run the other way.  With the edit `x ↦ x + v` in every iteration, gradient `x` and `tau = 1/2`, three iterations with
vandenberghe's weights return the unedited result, changed by `-v/8` through the extrapolation, plus the last edit `v`. -/
theorem C125_vandenberghe_refuted {f g : ProxOp E} (hf : ∀ x, f.grad x = .ok x) (hg : ∀ x, g.prox x (1 / 2) = .ok x) (x0 v : E) :
    (∃ s, PGEdit f g x0 ⟨some (1 / 2), false, 1, .scalar 1, 3, 1, .vandenberghe, 1, none⟩ (fun _ x => x + v) = .ok s ∧ s.x = (3 / 32 : ℝ) • x0 - (1 / 8 : ℝ) • v + v) ∧
    ∃ s, PGEdit f g x0 ⟨some (1 / 2), false, 1, .scalar 1, 3, 1, .vandenberghe, 1, none⟩ (fun _ x => x) = .ok s ∧ s.x = (3 / 32 : ℝ) • x0 := by
  have hT : ∀ (i : ℕ) (y : E), (do let gy ← f.grad y; g.prox (y - (1 / 2 : ℝ) • gy) ((fun _ : ℕ => (1 : ℝ)) i * (1 / 2))) = .ok ((1 / 2 : ℝ) • y) := fun i y => by
    have : y - (1 / 2 : ℝ) • y = (1 / 2 : ℝ) • y := by module
    simp only [hf, Bind.bind, Except.bind, one_mul, hg, this]
  constructor
  · obtain ⟨X, Y, hX, hY, h, s, h1, h2, -⟩ := C125_vandenberghe_steps f g x0 ⟨some (1 / 2), false, 1, .scalar 1, 3, 1, .vandenberghe, 1, none⟩ rfl rfl rfl rfl rfl (ε := fun _ => 1) (fun _ => rfl) (by norm_num) hT
      fun _ x => x + v
    refine ⟨s, h1, ?_⟩
    rw [h2, show (PGArgs.niter _) = 2 + 1 from rfl, (h 2).1, (h 1).2, (h 0).2, (h 0).1, hY, hX]
    push_cast
    module
  · obtain ⟨X, Y, hX, hY, h, s, h1, h2, -⟩ := C125_vandenberghe_steps f g x0 ⟨some (1 / 2), false, 1, .scalar 1, 3, 1, .vandenberghe, 1, none⟩ rfl rfl rfl rfl rfl (ε := fun _ => 1) (fun _ => rfl) (by norm_num) hT
      fun _ x => x
    refine ⟨s, h1, ?_⟩
    rw [h2, show (PGArgs.niter _) = 2 + 1 from rfl, (h 2).1, (h 1).2, (h 0).2, (h 0).1, hY, hX]
    push_cast
    module

end Verif
