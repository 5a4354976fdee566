import Verif.Props.Splitting
import Verif.Props.PrimalDual
import Verif.Props.Parallel
import Verif.Props.GPG
import Verif.Props.ProxPoint
import Verif.Props.ProxGrad
import Verif.Props.Calculus

/-! # C100: solvers that are special cases of one another

Equalities between what two solvers return and pass to their callbacks, for every pair of operators whose `prox` returns at the steps that are used (convex or not, exact or not), every
starting point and every number of iterations. -/

set_option linter.unusedSectionVars false

namespace Verif

variable {E : Type} [NormedAddCommGroup E] [InnerProductSpace ℝ E] {f g : ProxOp E} {τ : ℝ}

/-- `prox` with step `τ` returns for every input. -/
def ProxTotal (f : ProxOp E) (τ : ℝ) : Prop := ∀ x, ∃ p, f.prox x τ = .ok p

/-- The identity operator (`pylops.Identity`). -/
noncomputable def idOp (E : Type) [NormedAddCommGroup E] [InnerProductSpace ℝ E] : LinOp E E := ⟨LinearMap.id, LinearMap.id, fun _ _ => rfl⟩

/-- C100: `ADMM` that calls `g` first is `DouglasRachfordSplitting` that calls `f` first, with `eta = 1` and started from `prox_g(x0)`. -/
theorem C100_admm_dr_gfirst (hf : ProxTotal f τ) (hg : ProxTotal g τ) (x0 w : E) (z0 : Option E) (hw : g.prox x0 τ = .ok w) (n : ℕ) :
    ∃ s r, ADMM f g (some x0) z0 τ (n + 1) true = .ok s ∧ DouglasRachford f g w τ 1 (n + 1) false = .ok r ∧ s.x = r.1 ∧ s.log.map Prod.fst = r.2.2.map Prod.fst := by
  choose Pf hPf using hf
  choose Pg hPg using hg
  obtain ⟨z, hinit⟩ : ∃ z, x0z0Init (some x0) z0 = .ok (x0, z) := by cases z0 <;> exact ⟨_, rfl⟩
  obtain ⟨S, hx0, -, hu0, hu, ht, -, hlog, hS⟩ := admm_traj hPf hPg true (some x0) z0 x0 z hinit
  obtain ⟨Y, hY0, hY, hrun⟩ := dr_traj hPf hPg 1 false w
  simp only [Bool.false_eq_true, if_false] at hY hrun
  have hff := ht rfl
  have hw' : Pg x0 = w := by have := hPg x0; rw [hw] at this; injection this with h; exact h.symm
  have hV : ∀ n, (S (n + 1)).z - (S n).u = Y n := fun n => by
    induction n with
    | zero => rw [(hff 0).1, hx0, hu0, add_zero, sub_zero, hw', hY0]
    | succ n ih =>
      have e1 : (S (n + 1)).x = Pf (Y n) := by rw [(hff n).2, ih]
      have e2 : (S (n + 1)).u = Pf (Y n) - Y n := by rw [hu, e1, ← ih]; abel
      rw [(hff (n + 1)).1, e1, e2, hY]
      unfold drStep
      rw [one_smul, show Pf (Y n) + (Pf (Y n) - Y n) = (2 : ℝ) • Pf (Y n) - Y n by rw [two_smul]; abel]
      abel
  have hX : ∀ n, (S (n + 1)).x = Pf (Y n) := fun n => by rw [(hff n).2, hV n]
  refine ⟨_, _, hS _, hrun n, hX n, ?_⟩
  rw [hlog]
  simp only [List.map_map]
  exact List.map_congr_left fun i _ => hX i

/-- C100: `ADMM` that calls `f` first is `DouglasRachfordSplitting` that calls `g` first, with `eta = 1` and started from `prox_f(z0)`; the solution of `ADMM` is `z`. -/
theorem C100_admm_dr (hf : ProxTotal f τ) (hg : ProxTotal g τ) (x0 : Option E) (z0 w : E) (hw : f.prox z0 τ = .ok w) (n : ℕ) :
    ∃ s r, ADMM f g x0 (some z0) τ (n + 1) false = .ok s ∧ DouglasRachford f g w τ 1 (n + 1) true = .ok r ∧ s.z = r.1 ∧ s.log.map Prod.snd = r.2.2.map Prod.fst := by
  choose Pf hPf using hf
  choose Pg hPg using hg
  obtain ⟨x, hinit⟩ : ∃ x, x0z0Init x0 (some z0) = .ok (x, z0) := by cases x0 <;> exact ⟨_, rfl⟩
  obtain ⟨S, -, hz0, hu0, hu, -, hff, hlog, hS⟩ := admm_traj hPf hPg false x0 (some z0) x z0 hinit
  obtain ⟨Y, hY0, hY, hrun⟩ := dr_traj hPf hPg 1 true w
  simp only [if_true] at hY hrun
  have hff := hff rfl
  have hw' : Pf z0 = w := by have := hPf z0; rw [hw] at this; injection this with h; exact h.symm
  have hV : ∀ n, (S (n + 1)).x + (S n).u = Y n := fun n => by
    induction n with
    | zero => rw [(hff 0).1, hz0, hu0, add_zero, sub_zero, hw', hY0]
    | succ n ih =>
      have e1 : (S (n + 1)).z = Pg (Y n) := by rw [(hff n).2, ih]
      have e2 : (S (n + 1)).u = Y n - Pg (Y n) := by rw [hu, e1, ← ih]; abel
      rw [(hff (n + 1)).1, e1, e2, hY]
      unfold drStep
      rw [one_smul, show Pg (Y n) - (Y n - Pg (Y n)) = (2 : ℝ) • Pg (Y n) - Y n by rw [two_smul]; abel]
      abel
  have hZ : ∀ n, (S (n + 1)).z = Pg (Y n) := fun n => by rw [(hff n).2, hV n]
  refine ⟨_, _, hS _, hrun n, hZ n, ?_⟩
  rw [hlog]
  simp only [List.map_map]
  exact List.map_congr_left fun i _ => hZ i

/-- C100: `DouglasRachfordSplitting` only distinguishes the two functions by which is called first. -/
theorem C100_dr_swap (f g : ProxOp E) (x0 : E) (τ η : ℝ) (n : ℕ) (gfirst : Bool) :
    DouglasRachford f g x0 τ η n gfirst = DouglasRachford g f x0 τ η n (!gfirst) := by
  have : DR.body f g τ η gfirst = DR.body g f τ η (!gfirst) := by
    funext i s
    cases gfirst <;> rfl
  simp only [DouglasRachford, this]

/-- C100: `LinearizedADMM` with the identity operator and `mu = tau` is `ADMM` that calls `f` first. -/
theorem C100_linearized_admm (hτ : τ ≠ 0) (hf : ProxTotal f τ) (hg : ProxTotal g τ) (x0 : E) (n : ℕ) :
    ∃ s s', LinearizedADMM f g (idOp E) (some x0) none τ τ n = .ok s ∧ ADMM f g (some x0) none τ n false = .ok s' ∧ s.x = s'.x ∧ s.z = s'.z ∧ s.log = s'.log.map Prod.fst := by
  choose Pf hPf using hf
  choose Pg hPg using hg
  obtain ⟨X, Z, U, hX0, hZ0, hU0, hX1, hX, hZ, hU, hrun⟩ := ladmm_traj (A := idOp E) hτ hPf hPg x0 none
  obtain ⟨S, sx0, sz0, su0, hu, -, hff, hlog, hS⟩ := admm_traj hPf hPg false (some x0) none x0 x0 rfl
  have hff := hff rfl
  have hmat : ∀ v, (idOp E).matvec v = v := fun _ => rfl
  have hrm : ∀ v, (idOp E).rmatvec v = v := fun _ => rfl
  have hstep : ∀ n, X (n + 1) = Pf (Z n - U n) := fun n => by
    cases n with
    | zero => rw [hX1, hZ0, hU0]; simp [hmat]
    | succ n => rw [hX, hmat, hrm, div_self hτ, one_smul]; congr 1; abel
  have key : ∀ n, X n = (S n).x ∧ Z n = (S n).z ∧ U n = (S n).u := fun n => by
    induction n with
    | zero => exact ⟨by rw [hX0, sx0], by rw [hZ0, sz0]; rfl, by rw [hU0, su0]⟩
    | succ n ih =>
      have e1 : X (n + 1) = (S (n + 1)).x := by rw [hstep, (hff n).1, ih.2.1, ih.2.2]
      have e2 : Z (n + 1) = (S (n + 1)).z := by rw [hZ, (hff n).2, hmat, e1, ih.2.2]
      exact ⟨e1, e2, by rw [hU, hu, hmat, e1, e2, ih.2.2]⟩
  obtain ⟨ax, hax⟩ := hrun n
  refine ⟨_, _, hax, hS n, (key n).1, (key n).2.1, ?_⟩
  rw [hlog]
  simp only [List.map_map]
  exact List.map_congr_left fun i _ => (key (i + 1)).1

/-- C100: `PrimalDual` with the identity operator, `mu = 1/tau` and `theta = 1`, primal update first, is `DouglasRachfordSplitting` that calls `f` first, with `eta = 1` and started
from `x0 - tau y0`; `g` has its `prox` or its `proxdual` from the base class, or defines both consistently. -/
theorem C100_primaldual_dr (hτ : 0 < τ) (hf : ProxTotal f τ)
    (hg : ∀ x, ∃ p d, g.prox x τ = .ok p ∧ g.proxdual ((1 / τ) • x) (1 / τ) = .ok d ∧ x = p + τ • d) (x0 : E) (y0 : Option E) (n : ℕ) :
    ∃ s r, PrimalDual f g (idOp E) x0 y0 none (.scalar τ) (.scalar (1 / τ)) 1 (n + 1) false = .ok s ∧
      DouglasRachford f g (x0 - τ • y0.getD 0) τ 1 (n + 1) false = .ok r ∧ s.x = r.1 ∧ s.log.map Prod.fst = r.2.2.map Prod.fst ∧ s.x - τ • s.y = r.2.1 := by
  choose Pf hPf using hf
  choose Pg D hPg hD hM using hg
  have hD' : ∀ y, g.proxdual y (1 / τ) = .ok (D (τ • y)) := fun y => by
    have := hD (τ • y)
    rwa [smul_smul, one_div_mul_cancel hτ.ne', one_smul] at this
  obtain ⟨X, Y, Xh, hX0, -, hY0, hXh, -, hstep, hrun⟩ := pd_traj (A := idOp E) hPf hD' x0 y0 none 1 false
  obtain ⟨W, hW0, hW, hdr⟩ := dr_traj hPf hPg 1 false (x0 - τ • y0.getD 0)
  simp only [Bool.false_eq_true, if_false] at hW hdr
  have hstep := hstep rfl
  have hmat : ∀ v, (idOp E).matvec v = v := fun _ => rfl
  have hrm : ∀ v, (idOp E).rmatvec v = v := fun _ => rfl
  have key : ∀ n, X n - τ • Y n = W n := fun n => by
    induction n with
    | zero => rw [hX0, hY0, hW0]
    | succ n ih =>
      have e1 : X (n + 1) = Pf (W n) := by rw [(hstep n).1, hrm, ← ih]; simp
      have e2 : τ • (Y n + (1 / τ) • (idOp E).matvec (Xh (n + 1))) = (2 : ℝ) • Pf (W n) - W n := by
        rw [hmat, hXh, one_smul, smul_add, smul_smul, mul_one_div_cancel hτ.ne', one_smul, e1, ← ih, two_smul]; abel
      have e3 := hM ((2 : ℝ) • Pf (W n) - W n)
      rw [(hstep n).2, e2, e1, hW]
      unfold drStep
      rw [one_smul]
      have e4 : τ • D ((2 : ℝ) • Pf (W n) - W n) = (2 : ℝ) • Pf (W n) - W n - Pg ((2 : ℝ) • Pf (W n) - W n) := eq_sub_of_add_eq' e3.symm
      rw [e4]
      module
  have hX : ∀ n, X (n + 1) = Pf (W n) := fun n => by rw [(hstep n).1, hrm, ← key n]; simp
  refine ⟨_, _, hrun _, hdr n, hX n, ?_, key (n + 1)⟩
  simp only [List.map_map]
  exact List.map_congr_left fun i _ => hX i

/-- C100: `PPXA` with a single function and a single starting vector and `eta = 1` is `ProximalPoint` (no tolerance). -/
theorem C100_ppxa_point (hf : ProxTotal f τ) (x0 : E) (mx : E → ℝ) (hmx : ∀ v, 0 ≤ mx v) (n : ℕ) :
    ∃ s s', PPXA (m := 1) (fun _ => f) none (fun _ => x0) τ 1 n 0 mx = .ok s ∧ ProximalPoint f x0 τ n none = .ok s' ∧ s.x = s'.x ∧ s.log = s'.log := by
  choose P hP using hf
  obtain ⟨X, Y, hX0, hY0, hX, hY, hrun⟩ := ppxa_traj (m := 1) (fs := fun _ => f) (w := fun _ => 1) (P := fun _ => P) (τ := τ) (fun _ => one_ne_zero)
    (fun _ v => by rw [div_one]; exact hP v) (fun _ => x0) 1 0 mx
  obtain ⟨T, hT0, hT, hpp⟩ := pp_traj hP x0
  have key : ∀ n, X n = T n ∧ Y n 0 = T n := fun n => by
    induction n with
    | zero => exact ⟨by rw [hX0, hT0]; simp, by rw [hY0, hT0]⟩
    | succ n ih =>
      refine ⟨?_, ?_⟩
      · rw [hX, hT, ← ih.2]; simp
      · rw [hY, hT, ih.2, ih.1]; simp [two_smul, ih.2]; abel
  have hw : PPXA (m := 1) (fun _ => f) none (fun _ => x0) τ 1 n 0 mx = PPXA (m := 1) (fun _ => f) (some fun _ => 1) (fun _ => x0) τ 1 n 0 mx := by
    simp [PPXA]
  obtain ⟨k, hk, xo, h1, -, h3⟩ := hrun n
  have hkn : k = n := by
    by_contra hne
    obtain ⟨j, -, hlt⟩ := h3 (lt_of_le_of_ne hk hne)
    exact absurd hlt (not_lt.2 (hmx _))
  subst hkn
  refine ⟨_, _, hw.trans h1, hpp k, (key k).1, ?_⟩
  exact List.map_congr_left fun i _ => (key (i + 1)).1

/-- C100: `ConsensusADMM` with a single function is `ProximalPoint` (no tolerance). -/
theorem C100_consensus_point (hf : ProxTotal f τ) (x0 : E) (mx : E → ℝ) (hmx : ∀ v, 0 ≤ mx v) (n : ℕ) :
    ∃ s s', ConsensusADMM (m := 1) (fun _ => f) x0 τ n 0 mx = .ok s ∧ ProximalPoint f x0 τ n none = .ok s' ∧ s.xbar = s'.x ∧ s.log = s'.log := by
  choose P hP using hf
  obtain ⟨X, V, Y, hX0, hY0, hV, hX, hY, hrun⟩ := cons_traj (m := 1) (fs := fun _ => f) (P := fun _ => P) (fun _ v => hP v) x0 0 mx
  obtain ⟨T, hT0, hT, hpp⟩ := pp_traj hP x0
  have key : ∀ n, X n = T n ∧ Y n 0 = 0 := fun n => by
    induction n with
    | zero => exact ⟨by rw [hX0, hT0], hY0 0⟩
    | succ n ih =>
      have e : X (n + 1) = V (n + 1) 0 := by rw [hX]; simp
      refine ⟨by rw [e, hV, ih.1, ih.2, sub_zero, hT], by rw [hY, ih.2, e]; simp⟩
  obtain ⟨k, hk, xo, h1, -, h3⟩ := hrun n
  have hkn : k = n := by
    by_contra hne
    obtain ⟨j, -, hlt⟩ := h3 (lt_of_le_of_ne hk hne)
    exact absurd hlt (not_lt.2 (hmx _))
  subst hkn
  refine ⟨_, _, h1, hpp k, (key k).1, ?_⟩
  exact List.map_congr_left fun i _ => (key (i + 1)).1

/-- C100: `GeneralizedProximalGradient` with one smooth and one proximable function and without acceleration is `ProximalGradient`. -/
theorem C100_generalized_pg {ε : ℝ} (hgr : ∀ x, ∃ v, f.grad x = .ok v) (hg : ProxTotal g (ε * τ)) (x0 : E) (n : ℕ) (hn : 0 < n) :
    ∃ s s', GeneralizedProximalGradient (l := 1) (m := 1) (fun _ => f) (fun _ => g) x0 (some τ) (.scalar ε) none 1 n .none = .ok s ∧
      ProximalGradient f g x0 (pgArgs τ ε .none n) = .ok s' ∧ s.x = s'.x ∧ s.log = s'.log := by
  choose G hG using hgr
  choose P hP using hg
  obtain ⟨X, Y, t, Z, hX0, hY0, hZ0, hZ, hX, hY, hrun⟩ := gpg_traj (l := 1) (m := 1) (fs := fun _ => f) (gs := fun _ => g) (τ := τ) (w := fun _ => 1) (e := fun _ => ε) (eps := .scalar ε)
    (η := 1) (G := G) (P := fun _ => P) (fun x => ⟨fun _ => G x, fun _ => hG x, by simp⟩) (fun _ => rfl) (fun _ v => by rw [div_one, mul_comm]; exact hP v) (fun _ => one_ne_zero)
    (by simp) x0 .none (by decide)
  obtain ⟨X', Y', t', hX0', hY0', -, hX', -, hY', hrun'⟩ := pg_traj hG hP .none (by decide) x0
  have hm : ∀ n t, (momentum .none n t).1 = 0 := fun _ _ => rfl
  have key : ∀ n, X n = X' n ∧ Y n = X' n ∧ Z n 0 = X' n ∧ Y' n = X' n := fun n => by
    induction n with
    | zero => exact ⟨by rw [hX0, hX0'], by rw [hY0, hX0'], by rw [hZ0, hX0'], by rw [hY0', hX0']⟩
    | succ n ih =>
      have ez : Z (n + 1) 0 = X' (n + 1) := by
        rw [hZ, hX', ih.1, ih.2.1, ih.2.2.1, ih.2.2.2, one_smul, two_smul]; simp
      have ex : X (n + 1) = X' (n + 1) := by rw [hX]; simp [ez]
      exact ⟨ex, by rw [hY, hm, zero_smul, add_zero, ex], ez, by rw [hY', hm, zero_smul, add_zero]⟩
  have hw : GeneralizedProximalGradient (l := 1) (m := 1) (fun _ => f) (fun _ => g) x0 (some τ) (.scalar ε) none 1 n .none =
      GeneralizedProximalGradient (l := 1) (m := 1) (fun _ => f) (fun _ => g) x0 (some τ) (.scalar ε) (some (List.ofFn fun _ : Fin 1 => (1 : ℝ))) 1 n .none := by
    simp [GeneralizedProximalGradient]
  refine ⟨_, _, hw.trans (hrun n), hrun' n hn, (key n).1, ?_⟩
  exact List.map_congr_left fun i _ => (key (i + 1)).1

/-- Non-vacuity: two `L1` objects satisfy the hypotheses of `C100_primaldual_dr` (and so those of the theorems above). -/
example {ι : Type} [Fintype ι] (x0 y0 : Vec ι) (n : ℕ) :
    ∃ s r, PrimalDual (L1 1 none) (L1 2 none) (idOp (Vec ι)) x0 (some y0) none (.scalar 3) (.scalar (1 / 3)) 1 (n + 1) false = .ok s ∧
      DouglasRachford (L1 1 none) (L1 2 none) (x0 - (3 : ℝ) • y0) 3 1 (n + 1) false = .ok r ∧ s.x = r.1 := by
  obtain ⟨s, r, h1, h2, h3, -⟩ := C100_primaldual_dr (f := L1 1 none) (g := L1 2 none) (τ := 3) (by norm_num)
    (fun x => by obtain ⟨p, -, h, -⟩ := C02_moreau_l1 1 zero_le_one none x 3 (by norm_num); exact ⟨p, h⟩)
    (fun x => C02_moreau_l1 2 two_pos.le none x 3 (by norm_num)) x0 (some y0) n
  exact ⟨s, r, h1, h2, h3⟩

end Verif
