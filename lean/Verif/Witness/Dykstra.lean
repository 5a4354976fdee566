import Verif.Witness.Solvers2
import Verif.Props.Dykstra
import Verif.Props.DykstraClosed
import Verif.Props.Sum
import Verif.Props.Steps
import Verif.Props.Slater

/-! # Concrete cases for C37, C38, C39, C74, C107 and the Slater variants of C44–C50

The problem of `Verif/Witness/Kit.lean`, and two boxes: `[0, 1]²` and `[-1, 3]²`. -/

open scoped RealInnerProductSpace
open Filter Topology

set_option linter.unnecessarySeqFocus false

namespace Verif
namespace Kit

lemma ofReal_closed {E : Type} [NormedAddCommGroup E] [InnerProductSpace ℝ E] {φ : E → ℝ} (h : Continuous φ) : (XFun.ofReal φ).Closed := by
  have : {p : E × ℝ | p.1 ∈ (XFun.ofReal φ).dom ∧ (XFun.ofReal φ).val p.1 ≤ p.2} = {p | φ p.1 ≤ p.2} := by
    ext p; simp [XFun.ofReal]
  rw [XFun.Closed, this]
  exact isClosed_le (h.comp continuous_fst) continuous_snd

lemma hFcl : F.Closed := ofReal_closed (by unfold φ; fun_prop)
lemma hGcl : G.Closed := ofReal_closed (by unfold ψ; fun_prop)
lemma hFscl (i : Fin 2) : (Fs i).Closed := by fin_cases i; exacts [hFcl, hGcl]

/-! ## Two functions (C37) -/

noncomputable def step1 (v : V2) : Py V2 := f.prox v 1
noncomputable def step2 (v : V2) : Py V2 := g.prox v 1
lemma hstep1 (v : V2) : ∃ p, step1 v = .ok p ∧ IsProx F 1 v p := hf v 1 one_pos
lemma hstep2 (v : V2) : ∃ p, step2 v = .ok p ∧ IsProx G 1 v p := hg v 1 one_pos
lemma hstep1' (v p : V2) (h : step1 v = .ok p) : IsProx F 1 v p := by
  obtain ⟨q, h1, h2⟩ := hstep1 v
  cases h1.symm.trans h
  exact h2
lemma hstep2' (v p : V2) (h : step2 v = .ok p) : IsProx G 1 v p := by
  obtain ⟨q, h1, h2⟩ := hstep2 v
  cases h1.symm.trans h
  exact h2

/-- The point `x0 = [0, -1/2]`, the proximal point `c = [1, 0]` of `F + G` there and the two subgradients. -/
noncomputable def dx0 : V2 := !₂[0, -1 / 2]
noncomputable def dt : V2 := !₂[1, 1 / 2]
lemma dsub1 : IsSubgrad F xa (xa - b) := f_subgrad xa
lemma dsub2 : IsSubgrad G xa dt := l1_subgrad (by intro i; fin_cases i <;> simp [dt] <;> norm_num [abs_of_pos]) (by intro i; fin_cases i <;> simp [dt, xa])
lemma dsum : xa + (1 : ℝ) • ((xa - b) + dt) = dx0 := by
  ext i; fin_cases i <;> simp [xa, b, dt, dx0] <;> norm_num

lemma exists_dykRun (n : ℕ) : ∃ r, dykstraTwo dx0 step1 step2 n 0 mx = .ok r := by
  obtain ⟨_, -, R, hR, -⟩ := C37_two_converges_closed hF hG hFcl hGcl one_pos hstep1 hstep2 ⟨0, trivial, trivial⟩ dx0 mx hmx
  exact ⟨R n, hR n⟩
noncomputable def dykRun (n : ℕ) : DykState V2 := (exists_dykRun n).choose
lemma dykRun_ok (n : ℕ) : dykstraTwo dx0 step1 step2 n 0 mx = .ok (dykRun n) := (exists_dykRun n).choose_spec

example (n : ℕ) := C37_two_conserved step1 step2 dx0 n 0 mx _ (dykRun_ok n)
example := C37_two_converges hF hG one_pos hstep1 hstep2 dx0 mx hmx xa _ _ dsub1 dsub2 dsum dykRun dykRun_ok
example := C37_two_converges_closed hF hG hFcl hGcl one_pos hstep1 hstep2 ⟨0, trivial, trivial⟩ dx0 mx hmx
/-- The state after one iteration has a `y`, as the error bound asks. -/
example : ∃ r y, dykstraTwo dx0 step1 step2 1 0 mx = .ok r ∧ r.y = some y ∧ ‖r.x - xa‖ ^ 2 ≤ ‖r.p - (1 : ℝ) • (xa - b)‖ * ‖y - r.x‖ := by
  obtain ⟨y, hy, -⟩ := hstep1 dx0
  obtain ⟨x, hx, -⟩ := hstep2 y
  have h : dykstraTwo dx0 step1 step2 1 0 mx = .ok ⟨x, some y, 0 + dx0 - y, 0 + y - x⟩ := by
    simp [dykstraTwo, forRange, dykstraTwo.body, hy, hx, Bind.bind, Except.bind, Pure.pure, Except.pure]
  exact ⟨_, y, h, rfl, C37_two_error_bound hF hG one_pos hstep1' hstep2' dx0 1 0 mx _ h y rfl xa _ _ dsub1 dsub2 dsum⟩

/-! ## Two boxes (C37, C38) -/

noncomputable def box1 : ProxOp V2 := Box (fun _ => some 0) (fun _ => some 1)
noncomputable def box2 : ProxOp V2 := Box (fun _ => some (-1)) (fun _ => some 3)
def C1 : Set V2 := boxSet (fun _ => some 0) (fun _ => some 1)
def C2 : Set V2 := boxSet (fun _ => some (-1)) (fun _ => some 3)
lemma hbox1 : ProxExact box1 (XFun.indicator C1) := box_proxExact _ _ (by rintro i a b ⟨⟩ ⟨⟩; norm_num)
lemma hbox2 : ProxExact box2 (XFun.indicator C2) := box_proxExact _ _ (by rintro i a b ⟨⟩ ⟨⟩; norm_num)
noncomputable def bx0 : V2 := !₂[2, 5]

noncomputable def bprojs : Fin 2 → V2 → Py V2 := ![fun v => box1.prox v 1, fun v => box2.prox v 1]
def bsets : Fin 2 → Set V2 := ![C1, C2]
lemma bsets_convex (i : Fin 2) : _root_.Convex ℝ (bsets i) := by fin_cases i <;> exact boxSet_convex _ _
lemma bprojs_ok (i : Fin 2) (v : V2) : ∃ p, bprojs i v = .ok p ∧ IsProj (bsets i) v p := by
  fin_cases i
  · obtain ⟨p, h1, h2⟩ := hbox1 v 1 one_pos; exact ⟨p, h1, (isProj_iff_isProx one_pos).1 h2⟩
  · obtain ⟨p, h1, h2⟩ := hbox2 v 1 one_pos; exact ⟨p, h1, (isProj_iff_isProx one_pos).1 h2⟩
lemma bprojs_map (i : Fin 2) (v p : V2) (h : bprojs i v = .ok p) : IsProj (bsets i) v p := by
  obtain ⟨q, h1, h2⟩ := bprojs_ok i v
  cases h1.symm.trans h
  exact h2
lemma zero_mem : (⋂ i, bsets i).Nonempty :=
  ⟨0, Set.mem_iInter.2 fun i => by fin_cases i <;> intro j <;> constructor <;> rintro a ⟨⟩ <;> simp⟩

/-- `box1` sends `[2, 5]` to `[1, 1]`, and `box2` leaves that in place. -/
noncomputable def bp : V2 := !₂[1, 1]
lemma box1_bx0 : box1.prox bx0 1 = .ok bp := by
  simp only [box1, Box, ProxOp.prox, checkTau]
  rw [if_neg (by norm_num)]
  refine congrArg Except.ok ?_
  ext i
  fin_cases i <;> simp [boxProj, boxClip, bx0, bp, minUpper, maxLower]
lemma box2_bp : box2.prox bp 1 = .ok bp := by
  simp only [box2, Box, ProxOp.prox, checkTau]
  rw [if_neg (by norm_num)]
  refine congrArg Except.ok ?_
  ext i
  fin_cases i <;> simp [boxProj, boxClip, bp, minUpper, maxLower]

lemma two_boxes : dykstraTwo bx0 (bprojs 0) (bprojs 1) 1 0 mx = .ok ⟨bp, some bp, 0 + bx0 - bp, 0 + bp - bp⟩ := by
  simp [dykstraTwo, forRange, dykstraTwo.body, bprojs, box1_bx0, box2_bp, Bind.bind, Except.bind, Pure.pure, Except.pure]
lemma cyc_boxes : ∃ r, parallelDykstraProjection bx0 bprojs 1 0 mx = .ok r ∧ r.u = bp ∧ r.up = some fun _ => r.u := by
  simp [parallelDykstraProjection, forRange, cyc.body, cyc.inner, prevIdx, bprojs, box1_bx0, box2_bp, Bind.bind, Except.bind, Pure.pure, Except.pure]
  funext i; fin_cases i <;> rfl
example := C37_two_stationary (indicator_convex (bsets_convex 0)) (indicator_convex (bsets_convex 1)) one_pos (fun v p h => (isProj_iff_isProx one_pos).2 (bprojs_map 0 v p h))
  (fun v p h => (isProj_iff_isProx one_pos).2 (bprojs_map 1 v p h)) bx0 1 0 mx _ two_boxes rfl
example : IsUniqueProj (⋂ i, bsets i) bx0 bp := by
  obtain ⟨r, h1, h2, h3⟩ := cyc_boxes
  exact h2 ▸ C37_cyclic_projection bsets_convex bprojs_map bx0 1 0 mx r h1 h3
example : ∃ r, IsUniqueProx (sumObj fun i => XFun.indicator (bsets i)) 1 bx0 r := by
  obtain ⟨r, h1, -, h3⟩ := cyc_boxes
  exact ⟨_, C37_cyclic_stationary (fun i => indicator_convex (bsets_convex i)) one_pos (fun i v p h => (isProj_iff_isProx one_pos).2 (bprojs_map i v p h)) bx0 1 0 mx r h1 h3⟩
example : ∃ r, parallelDykstraProjection bx0 bprojs 1 0 mx = .ok r ∧ r.u + ∑ i, r.z i = bx0 := by
  obtain ⟨r, h1, -⟩ := cyc_boxes
  exact ⟨r, h1, C37_cyclic_conserved bprojs bx0 1 0 mx r h1⟩
example := C37_cyclic_converges hFs hFscl one_pos (fun i v => hfs i v 1 one_pos) ⟨0, fun i => by fin_cases i <;> trivial⟩ dx0 mx hmx
example := C37_cyclic_projection_converges bsets_convex bprojs_ok zero_mem bx0 mx hmx
example (par : Bool) := C38_intersection_converges_closed bsets_convex bprojs_ok zero_mem par mx hmx bx0
example (n : ℕ) (par : Bool) (x : V2) := C38_intersection_call bprojs_ok n (tol := 1e-8) (by norm_num) par mx (by simp [mx]) x
example (n : ℕ) (tol : ℝ) (par : Bool) := C38_intersection_small (fun i => i.elim0) (P := fun _ => bprojs 0) (bprojs_ok 0) n tol par mx bx0

lemma exists_interRun (n : ℕ) : ∃ r, GenericIntersectionProj bprojs n 0 false mx bx0 = .ok r := by
  obtain ⟨_, -, R, hR, -⟩ := C38_intersection_converges_closed bsets_convex bprojs_ok zero_mem false mx hmx bx0
  exact ⟨R n, hR n⟩
noncomputable def interRun (n : ℕ) : V2 := (exists_interRun n).choose
example := C38_intersection_converges bsets_convex bprojs_ok mx hmx bx0 bp !₂[1, 4] 0
  (fun i => by fin_cases i <;> intro j <;> constructor <;> rintro a ⟨⟩ <;> fin_cases j <;> simp [bp])
  (fun y hy => by
    have h0 := (hy 0).2 1 rfl
    have h1 := (hy 1).2 1 rfl
    simp [PiLp.inner_apply, bp, Fin.sum_univ_two]
    linarith)
  (by simp) (by ext i; fin_cases i <;> simp [bp, bx0] <;> norm_num) interRun fun n => (exists_interRun n).choose_spec

/-! ## Weights (C37) -/

noncomputable def proxs : Fin 2 → V2 → ℝ → Py V2 := fun i => (fs i).prox
noncomputable def ts : Fin 2 → ℝ := ![2, 1 / 3]
lemma hts (i : Fin 2) : 0 < ts i := by fin_cases i <;> simp [ts]
lemma hproxs (i : Fin 2) (v : V2) : ∃ p, proxs i v (ts i) = .ok p ∧ IsProx (Fs i) (ts i) v p := hfs i v _ (hts i)
example := C37_weighted_converges_closed hFs hFscl hw hts hproxs ⟨0, fun i => by fin_cases i <;> trivial⟩ dx0 mx hmx
noncomputable def parx0 : V2 := xa + ∑ i, (w i * ts i / ∑ j, w j) • (![xa - b, dt] : Fin 2 → V2) i
lemma exists_parRun (n : ℕ) : ∃ r, parallelDykstraProx parx0 proxs (List.ofFn w) (List.ofFn ts) n 0 mx = .ok r := by
  obtain ⟨_, -, R, hR, -⟩ := C37_weighted_converges_closed hFs hFscl hw hts hproxs ⟨0, fun i => by fin_cases i <;> trivial⟩ parx0 mx hmx
  exact ⟨R n, hR n⟩
noncomputable def parRun (n : ℕ) : ParState V2 2 := (exists_parRun n).choose
lemma parRun_ok (n : ℕ) : parallelDykstraProx parx0 proxs (List.ofFn w) (List.ofFn ts) n 0 mx = .ok (parRun n) := (exists_parRun n).choose_spec
example := C37_weighted_converges hFs hw hts hproxs parx0 mx hmx xa ![xa - b, dt] (fun i => by fin_cases i; exacts [dsub1, dsub2]) rfl parRun parRun_ok
example (n : ℕ) := C37_weighted_conserved proxs parx0 (List.ofFn w) (List.ofFn ts) (by simp) n 0 mx _ (parRun_ok n)

/-- `L2(b)` twice from the origin: the two proximal points agree after one pass. -/
example : ∃ r, parallelDykstraProx (0 : V2) (fun _ : Fin 2 => f.prox) (List.ofFn w) (List.ofFn fun _ : Fin 2 => (1 : ℝ)) 1 0 mx = .ok r ∧
    IsUniqueProx (sumObj fun i => F.smul (w i * 1 / ∑ j, w j)) 1 0 r.x := by
  obtain ⟨p, hp, -⟩ := hf 0 1 one_pos
  have hsum : (List.ofFn w).sum = 1 := by rw [ofFn_sum, hw1]
  have h : parallelDykstraProx (0 : V2) (fun _ : Fin 2 => f.prox) (List.ofFn w) (List.ofFn fun _ : Fin 2 => (1 : ℝ)) 1 0 mx = .ok ⟨p, fun _ => 0 + p - p, some fun _ => p⟩ := by
    have hm : mapPy (par.proxAt (fun _ : Fin 2 => f.prox) (List.ofFn fun _ : Fin 2 => (1 : ℝ)) fun _ => 0) = .ok fun _ => p := mapPy_ok fun i => by
      fin_cases i <;> simp [par.proxAt, hp]
    have hx : ∑ i : Fin 2, (normalise (List.ofFn w)).getD i 0 • p = p := by
      rw [← Finset.sum_smul]
      simp only [normalise_ofFn, hw1, div_one, one_smul]
    rw [parallelDykstraProx, if_neg (by rw [hsum]; exact one_ne_zero)]
    simp only [forRange, par.body, hm, Bind.bind, Except.bind, Pure.pure, Except.pure, hx, normalise_length, List.length_ofFn, ne_eq, not_true_eq_false, if_false]
    split <;> rfl
  exact ⟨_, h, C37_weighted_stationary (fun _ => hF) hw (fun _ => one_pos) (fun i v q hq => hstep1' v q hq) 0 1 0 mx _ h rfl⟩

/-! ## Sum (C38, C39, C74) -/

noncomputable def cfg (par orig : Bool) : SumCfg V2 2 := ⟨fs, 10, 0, par, orig⟩
example (par : Bool) := C38_default_converges_closed (cfg par false) rfl hFs hFscl hfs _ rfl ⟨0, fun i => by fin_cases i <;> trivial⟩ dx0 one_pos mx hmx
example := C38_weighted_converges_closed (cfg true false) (.inr ⟨rfl, rfl⟩) rfl hFs hFscl hfs w hw hw1 ⟨List.ofFn w, true⟩ rfl ⟨0, fun i => by fin_cases i <;> trivial⟩ dx0 one_pos mx hmx
example := C38_original_tau_converges_closed (cfg true true) (.inr ⟨rfl, rfl⟩) rfl hFs hFscl hfs w hw ⟨List.ofFn w, true⟩ rfl ⟨0, fun i => by fin_cases i <;> trivial⟩ dx0 one_pos mx hmx

/-- The gradients that certify `xa` as the proximal point at `dx0`. -/
noncomputable def gs2 : Fin 2 → V2 := ![xa - b, dt]
lemma hgs2 (i : Fin 2) : IsSubgrad (Fs i) xa (gs2 i) := by fin_cases i; exacts [dsub1, dsub2]
lemma hgs2_sum : xa + (1 : ℝ) • ∑ i, gs2 i = dx0 := by simpa [gs2, Fin.sum_univ_two] using dsum
lemma exists_sumRun (par : Bool) (n : ℕ) : ∃ r, (Sum.prox ((cfg par false).run n) mx ⟨[1 / 2, 1 / 2], false⟩ dx0 1).1 = .ok r := by
  obtain ⟨_, -, R, hR, -⟩ := C38_default_converges_closed (cfg par false) rfl hFs hFscl hfs ⟨[1 / 2, 1 / 2], false⟩ (by simp [Sum.init]) ⟨0, fun i => by fin_cases i <;> trivial⟩
    dx0 one_pos mx hmx
  exact ⟨R n, hR n⟩
example (par : Bool) := C38_default_converges (cfg par false) rfl hFs hfs ⟨[1 / 2, 1 / 2], false⟩ (by simp [Sum.init]) dx0 one_pos mx hmx xa gs2 hgs2 hgs2_sum _
  fun n => (exists_sumRun par n).choose_spec
lemma exists_sumRunW (n : ℕ) : ∃ r, (Sum.prox ((cfg true false).run n) mx ⟨List.ofFn w, true⟩ dx0 1).1 = .ok r := by
  obtain ⟨_, -, R, hR, -⟩ := C38_weighted_converges_closed (cfg true false) (.inr ⟨rfl, rfl⟩) rfl hFs hFscl hfs w hw hw1 ⟨List.ofFn w, true⟩ rfl ⟨0, fun i => by fin_cases i <;> trivial⟩
    dx0 one_pos mx hmx
  exact ⟨R n, hR n⟩
example := C38_weighted_converges (cfg true false) (.inr ⟨rfl, rfl⟩) rfl hFs hfs w hw hw1 ⟨List.ofFn w, true⟩ rfl dx0 one_pos mx hmx xa gs2 hgs2 hgs2_sum _
  fun n => (exists_sumRunW n).choose_spec
noncomputable def ox0 : V2 := xa + (1 : ℝ) • ∑ i, (w i / ∑ j, w j) • gs2 i
lemma exists_sumRunO (n : ℕ) : ∃ r, (Sum.prox ((cfg true true).run n) mx ⟨List.ofFn w, true⟩ ox0 1).1 = .ok r := by
  obtain ⟨_, -, R, hR, -⟩ := C38_original_tau_converges_closed (cfg true true) (.inr ⟨rfl, rfl⟩) rfl hFs hFscl hfs w hw ⟨List.ofFn w, true⟩ rfl ⟨0, fun i => by fin_cases i <;> trivial⟩
    ox0 one_pos mx hmx
  exact ⟨R n, hR n⟩
example := C38_original_tau_converges (cfg true true) (.inr ⟨rfl, rfl⟩) rfl hFs hfs w hw ⟨List.ofFn w, true⟩ rfl ox0 one_pos mx hmx xa gs2 hgs2 rfl _
  fun n => (exists_sumRunO n).choose_spec
example (par : Bool) (x : V2) := C38_sum_evaluates (cfg par false) Fs (fun i => by fin_cases i; exacts [.inl ⟨φ, hfc, rfl⟩, .inl ⟨ψ, hgc, rfl⟩]) x
example (s : SumState) := C38_single (F := F) ⟨fun _ => f, 10, 0, false, false⟩ hf mx s dx0 one_pos

/-! ## Slater's condition -/

lemma slater : Slater F G := ⟨0, .inl ⟨trivial, by simp [G, XFun.ofReal]⟩⟩
lemma slaterComp : SlaterComp F G A.matvec := ⟨0, trivial, by simp [G, XFun.ofReal]⟩
lemma slaterSum : SlaterSum Fs := ⟨0, 0, trivial, fun i hi => by fin_cases i; exacts [absurd rfl hi, by simp [Fs, G, XFun.ofReal]]⟩

lemma isMinFG : (F.add G).IsMin xs := cert.isMin
lemma isMinComp : (compObj F G A.matvec 0).IsMin xa := certA.isMin

example (gf : Bool) := C44_dr_converges_slater hF hG hf hg one_pos one_pos one_lt_two gf 0 slater ⟨xs, isMinFG⟩ (drRun gf) (drRun_ok gf)
example (gf : Bool) := C45_admm_converges_slater hF hG hf hg one_pos gf (some 0) none (.inl rfl) slater ⟨xs, isMinFG⟩
example := C46_linadmm_converges_slater hF hG hf hg one_pos (by norm_num) zero_le_two opA (by norm_num) 0 none slaterComp ⟨xa, isMinComp⟩ ladmmRun ladmmRun_ok
example := C47_admml2_converges_slater_partial hG hg one_pos solvesReg 0 none ⟨0, by simp [G, XFun.ofReal]⟩ ⟨xa, certMisfit.isMin⟩ al2Run al2Run_ok
example (gf : Bool) := C50_pd_converges_slater hF hG hf hg hd (by norm_num) (by norm_num) zero_le_two opA (by norm_num) none gf 0 none slaterComp ⟨xa, isMinComp⟩ (pdRun gf) (pdRun_ok gf)

/-! ## Step sizes (C107) -/

example := C107_tradeoff hf
example (x : V2) := C107_bound hf x one_pos _ (hf x 1 one_pos).choose_spec.1 b trivial
example (x : V2) := C107_continuity hF hf x one_pos one_le_two _ _ (hf x 1 one_pos).choose_spec.1 (hf x 2 two_pos).choose_spec.1
example := C107_small_steps hf 0 trivial
example (x : V2) := C107_large_steps hf x b isMin_b one_pos _ (hf x 1 one_pos).choose_spec.1
example := C107_weight hg one_pos one_lt_two
/-- `½‖x-b‖² + c‖x‖₁` is certified at `[2, 0]` for `c = 1` and at `[1, 0]` for `c = 2`. -/
lemma certW1 : IsCertified F (G.smul 1) xs ss := ⟨cert.1, by
  refine ⟨cert.2.1, fun y hy => ?_⟩
  simpa [XFun.smul] using cert.2.2 y hy⟩
lemma certW2 : IsCertified F (G.smul 2) xa (b - xa) := ⟨by simpa using f_subgrad xa, by
  have h : IsSubgrad G xa !₂[1, 1 / 2] := dsub2
  refine ⟨h.1, fun y hy => ?_⟩
  have := h.2 y hy
  have e : b - xa = (2 : ℝ) • !₂[1, 1 / 2] := by ext i; fin_cases i <;> simp [b, xa] <;> norm_num
  rw [e, inner_smul_left]
  simp only [XFun.smul, RCLike.conj_to_real]
  linarith⟩
example := C107_path one_pos one_lt_two xs xa certW1.isMin certW2.isMin
example (gf gf' : Bool) := C107_admm hF hG hf hg one_pos one_lt_two one_pos two_pos gf gf' 0 b ⟨xs, ss, certW1⟩ ⟨xa, _, certW2⟩
example (x : V2) := C107_limit hF hf x b isMin_b (fun t => if h : 0 < t then (hf x t h).choose else 0) fun t ht => by
  simpa [dif_pos ht] using (hf x t ht).choose_spec.1

end Kit
end Verif
