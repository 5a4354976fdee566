import Verif.Props.Dtype3
import Verif.Props.Invariance

/-! # C104, continued: code that works in place or assigns to entries of an array of the caller's dtype -/

open scoped RealInnerProductSpace

namespace Verif

variable {ι κ : Type} [Fintype ι] [Fintype κ]

/-! ## In-place arithmetic: an exception -/

/-- C104 is false for L2 with `q` and without data: every integer array raises `TypeError`, although arrays of floats with the same values are accepted. -/
theorem C104_l2_q_refuted (σ α : ℝ) (hσ : 0 ≤ σ) (q : Vec ι) (k : ι → ℤ) (τ : ℝ) (hτ : 0 < τ) :
    L2qT.prox σ α q (stored .int k) τ = .error .typeError ∧
      L2qT.prox σ α q (stored .float k) τ = .ok ⟨.float, (1 / (1 + τ * σ)) • ((stored .float k).val - (τ * α) • q)⟩ := by
  have hne : 1 + τ * σ ≠ 0 := by positivity
  constructor
  · simp [L2qT.prox, checkTau, not_le.2 hτ, Arr.isub, Arr.iadd, Arr.iaddAll, stored, Bind.bind, Except.bind]
  · simp [L2qT.prox, checkTau, not_le.2 hτ, Arr.isub, Arr.iadd, Arr.iaddAll, stored, Bind.bind, Except.bind, Pure.pure, Except.pure, sub_eq_add_neg, hne]

/-- C104 is false for `GeneralizedProximalGradient`: started from integers it never returns, whatever the operators are. -/
theorem C104_gpg_refuted {l m : ℕ} (fs : Fin l → TOp ι) (gs : Fin m → TOp ι) (k : ι → ℤ) (tau : Option ℝ) (eps : StepSpec) (weights : Option (List ℝ)) (η : ℝ) (n : ℕ) (hn : 1 ≤ n)
    (acc : Accel) (r : GPGState (Arr ι) m) : GeneralizedProximalGradientT fs gs (stored .int k) tau eps weights η n acc ≠ .ok r := by
  classical
  intro h
  unfold GeneralizedProximalGradientT at h
  extract_lets ws at h
  split_ifs at h with h1 h2
  push Not at h1
  have hm : 0 < m := by
    rcases Nat.eq_zero_or_pos m with h0 | h0
    · exfalso
      rw [h0] at h1
      have := List.length_eq_zero_iff.1 h1.1
      rw [this] at h1
      simp at h1
    · exact h0
  obtain ⟨n, rfl⟩ := Nat.exists_eq_add_of_le' hn
  simp only [forRange] at h
  generalize (fun j : Fin m => ws.getD (↑j) 0) = w at h
  have hb : ∀ s', GPGT.body fs gs w eps (tau.getD 1) η acc 0 ⟨stored .int k, stored .int k, 1, fun _ => stored .int k, []⟩ ≠ .ok s' := by
    intro s' hs
    unfold GPGT.body at hs
    simp only [Bind.bind, Except.bind] at hs
    split at hs
    · cases hs
    · split at hs
      · cases hs
      · split at hs
        · cases hs
        · rename_i gr _ grad _ zs hz
          have := mapPy_inv hz ⟨0, hm⟩
          unfold GPGT.zstep at this
          simp only [Bind.bind, Except.bind] at this
          split at this
          · cases this
          · split_ifs at this
            split at this
            · cases this
            · simp [Arr.iadd, Arr.iaddAll, stored, Arr.scale] at this
  cases hbb : GPGT.body fs gs w eps (tau.getD 1) η acc 0 ⟨stored .int k, stored .int k, 1, fun _ => stored .int k, []⟩ with
  | error e => rw [hbb] at h; cases h
  | ok s' => exact hb s' hbb

/-- C104 is false for `SR3` with its own solver: started from integers it raises `TypeError`. -/
theorem C104_sr3_refuted {E F : Type} [NormedAddCommGroup E] [InnerProductSpace ℝ E] [NormedAddCommGroup F] [InnerProductSpace ℝ F]
    (Op : LinOp E F) (Reg : LinOp E (Vec ι)) (data : F) (κ eps : ℝ) (hκ : 0 < κ) (x0 : E) (limOuter limInner : ℕ) (ho : 1 ≤ limOuter) (hi : 1 ≤ limInner) :
    SR3T Op Reg data κ eps x0 .int none limOuter limInner = .error .typeError := by
  obtain ⟨n, rfl⟩ := Nat.exists_eq_add_of_le' ho
  obtain ⟨m, rfl⟩ := Nat.exists_eq_add_of_le' hi
  simp only [SR3T, hκ.ne', if_false, not_lt.2 hκ.le, false_and, forRange, SR3T.body, SR3T.inner, LsqrT.body, Bind.bind, Except.bind, Except.map]

/-- The values of the loop variables of `GeneralizedProximalGradient`. -/
noncomputable def gpgVal {m : ℕ} (s : GPGState (Arr ι) m) : GPGState (Vec ι) m := ⟨s.x.val, s.y.val, s.t, fun j => (s.zs j).val, s.log.map Arr.val⟩

/-- C104 for `GeneralizedProximalGradient` started from floats: the dtypes of the arrays returned by the operators do not matter. -/
theorem C104_gpg_partial {l m : ℕ} (fs : Fin l → TOp ι) (gs : Fin m → TOp ι) (pf : Fin l → ProxOp (Vec ι)) (pg : Fin m → ProxOp (Vec ι))
    (hf : ∀ j a, ((fs j).grad a).map Arr.val = (pf j).grad a.val) (hg : ∀ j, Erases (gs j) (pg j)) (x0 : Vec ι) (tau : Option ℝ) (eps : StepSpec) (weights : Option (List ℝ)) (η : ℝ) (n : ℕ)
    (acc : Accel) : (GeneralizedProximalGradientT fs gs ⟨.float, x0⟩ tau eps weights η n acc).map gpgVal = GeneralizedProximalGradient pf pg x0 tau eps weights η n acc := by
  classical
  unfold GeneralizedProximalGradientT GeneralizedProximalGradient
  extract_lets ws ws2
  rw [show ws2 = ws from rfl]
  clear_value ws
  clear ws2
  by_cases h1 : ws.length ≠ m ∨ ws.sum ≠ 1
  · rw [if_pos h1, if_pos h1]; rfl
  rw [if_neg h1, if_neg h1]
  by_cases h2 : acc = .other
  · rw [if_pos h2, if_pos h2]; rfl
  rw [if_neg h2, if_neg h2]
  generalize (fun j : Fin m => ws.getD (↑j) 0) = w
  refine (forRange_map (J := fun s : GPGState (Arr ι) m => s.x.dt = .float ∧ ∀ j, (s.zs j).dt = .float) (π := gpgVal) (fun i s hs => ?_) n 0
    ⟨⟨.float, x0⟩, ⟨.float, x0⟩, 1, fun _ => ⟨.float, x0⟩, []⟩ ⟨rfl, fun _ => rfl⟩).1
  obtain ⟨hx, hz⟩ := hs
  have hzl : s.x.zerosLike.dt = .float := hx
  have hadd : ∀ {k : ℕ} (bs : Fin k → Arr ι), s.x.zerosLike.iaddAll bs = .ok ⟨.float, ∑ j, (bs j).val⟩ := by
    intro k bs
    rw [Arr.iaddAll, if_neg (by rw [hzl]; rintro ⟨h, -⟩; cases h), hzl]
    simp [Arr.zerosLike]
  rcases mapPy_cases Arr.val (fun j => (fs j).grad s.x) (fun j => (pf j).grad s.x.val) (fun j => by
    have := hf j s.x
    cases h : (fs j).grad s.x with
    | error e => rw [h] at this; exact .inl ⟨e, rfl, this.symm⟩
    | ok v => rw [h] at this; exact .inr ⟨v, rfl, this.symm⟩) with ⟨e, e1, e2⟩ | ⟨gr, e1, e2⟩
  · left
    exact ⟨e, by simp [GPGT.body, e1, Bind.bind, Except.bind], by simp [GPG.body, gpgVal, e2, Bind.bind, Except.bind]⟩
  · set grad : Arr ι := ⟨.float, ∑ j, (gr j).val⟩ with hgrad
    have hstep : ∀ j, (∃ e, GPGT.zstep gs w eps (tau.getD 1) η s grad j = .error e ∧ (do
        let e ← eps.at j
        if w j = 0 then .error .nanResult
        else (pg j).prox ((2 : ℝ) • s.y.val - (s.zs j).val - (tau.getD 1) • ∑ j, (gr j).val) ((tau.getD 1) * e / w j)) = Except.error e) ∨
        ∃ p : Arr ι, GPGT.zstep gs w eps (tau.getD 1) η s grad j = .ok ⟨.float, (s.zs j).val + η • (p.val - s.y.val)⟩ ∧ (do
        let e ← eps.at j
        if w j = 0 then .error .nanResult
        else (pg j).prox ((2 : ℝ) • s.y.val - (s.zs j).val - (tau.getD 1) • ∑ j, (gr j).val) ((tau.getD 1) * e / w j)) = Except.ok p.val := by
      intro j
      cases he : eps.at j with
      | error e => left; exact ⟨e, by simp [GPGT.zstep, he, Bind.bind, Except.bind], by simp [Bind.bind, Except.bind]⟩
      | ok e =>
        by_cases hw : w j = 0
        · left; exact ⟨.nanResult, by simp [GPGT.zstep, he, hw, Bind.bind, Except.bind], by simp [hw, Bind.bind, Except.bind]⟩
        · rcases (hg j).cases ((s.y.twice.sub (s.zs j)).sub (grad.scale (tau.getD 1))) ((tau.getD 1) * e / w j) with ⟨e', e3, e4⟩ | ⟨p, e3, e4⟩ <;>
            simp only [Arr.sub, Arr.twice, Arr.scale, hgrad] at e4
          · left
            exact ⟨e', by simp [GPGT.zstep, he, hw, e3, Bind.bind, Except.bind], by simp [hw, e4, Bind.bind, Except.bind]⟩
          · right
            refine ⟨p, ?_, by simp [hw, e4, Bind.bind, Except.bind]⟩
            simp only [GPGT.zstep, he, hw, if_false, e3, Bind.bind, Except.bind]
            simp [Arr.iadd, Arr.iaddAll, hz j, Arr.scale, Arr.sub]
    have hcase : (∃ e, mapPy (GPGT.zstep gs w eps (tau.getD 1) η s grad) = .error e ∧ mapPy (fun j => (do
        let e ← eps.at j
        if w j = 0 then .error .nanResult
        else (pg j).prox ((2 : ℝ) • s.y.val - (s.zs j).val - (tau.getD 1) • ∑ j, (gr j).val) ((tau.getD 1) * e / w j))) = Except.error e) ∨
        ∃ p : Fin m → Arr ι, mapPy (GPGT.zstep gs w eps (tau.getD 1) η s grad) = .ok (fun j => ⟨.float, (s.zs j).val + η • ((p j).val - s.y.val)⟩) ∧ mapPy (fun j => (do
        let e ← eps.at j
        if w j = 0 then .error .nanResult
        else (pg j).prox ((2 : ℝ) • s.y.val - (s.zs j).val - (tau.getD 1) • ∑ j, (gr j).val) ((tau.getD 1) * e / w j))) = Except.ok fun j => (p j).val := by
      by_cases hall : ∀ j, ∃ p : Arr ι, GPGT.zstep gs w eps (tau.getD 1) η s grad j = .ok ⟨.float, (s.zs j).val + η • (p.val - s.y.val)⟩ ∧ (do
        let e ← eps.at j
        if w j = 0 then .error .nanResult
        else (pg j).prox ((2 : ℝ) • s.y.val - (s.zs j).val - (tau.getD 1) • ∑ j, (gr j).val) ((tau.getD 1) * e / w j)) = Except.ok p.val
      · choose p hp1 hp2 using hall
        exact .inr ⟨p, mapPy_ok hp1, mapPy_ok hp2⟩
      · left
        rcases mapPy_cases (fun _ => ()) (GPGT.zstep gs w eps (tau.getD 1) η s grad) (fun j => (GPGT.zstep gs w eps (tau.getD 1) η s grad j).map fun _ => ()) (fun j => by
            cases GPGT.zstep gs w eps (tau.getD 1) η s grad j with
            | error e => exact .inl ⟨e, rfl, rfl⟩
            | ok v => exact .inr ⟨v, rfl, rfl⟩) with ⟨e, e3, e4⟩ | ⟨v, e3, e4⟩
        · refine ⟨e, e3, ?_⟩
          rcases mapPy_cases (fun _ => ()) (fun j => (do
            let e ← eps.at j
            if w j = 0 then .error .nanResult
            else (pg j).prox ((2 : ℝ) • s.y.val - (s.zs j).val - (tau.getD 1) • ∑ j, (gr j).val) ((tau.getD 1) * e / w j)))
            (fun j => (GPGT.zstep gs w eps (tau.getD 1) η s grad j).map fun _ => ()) (fun j => by
              rcases hstep j with ⟨e, e5, e6⟩ | ⟨p, e5, e6⟩
              · exact .inl ⟨e, e6, by rw [e5]; rfl⟩
              · exact .inr ⟨p.val, e6, by rw [e5]; rfl⟩) with ⟨e', e5, e6⟩ | ⟨v, e5, e6⟩
          · rw [e4] at e6; cases e6; exact e5
          · rw [e4] at e6; cases e6
        · exact (hall fun j => by
            rcases hstep j with ⟨e, e5, -⟩ | h
            · rw [mapPy_inv e3 j] at e5; cases e5
            · exact h).elim
    rcases hcase with ⟨e, e3, e4⟩ | ⟨p, e3, e4⟩
    · left
      refine ⟨e, ?_, ?_⟩
      · simp only [GPGT.body, e1, hadd, Bind.bind, Except.bind]
        rw [e3]
      · simp only [GPG.body, gpgVal, e2, Bind.bind, Except.bind] at e4 ⊢
        rw [e4]
    · right
      set zs : Fin m → Arr ι := fun j => ⟨.float, (s.zs j).val + η • ((p j).val - s.y.val)⟩ with hzs
      set x : Arr ι := ⟨.float, ∑ j, ((zs j).scale (w j)).val⟩ with hxx
      refine ⟨⟨x, x.add ((x.sub s.x).scale (momentum acc i s.t).1), (momentum acc i s.t).2, zs, s.log ++ [x]⟩, false, ?_, ?_, rfl, fun _ => rfl⟩
      · simp only [GPGT.body, e1, hadd, Bind.bind, Except.bind]
        rw [e3]
        rfl
      · simp only [GPG.body, gpgVal, e2, Bind.bind, Except.bind] at e4 ⊢
        rw [e4]
        simp [hxx, hzs, Arr.add, Arr.sub, Arr.scale, Pure.pure, Except.pure]

/-! ## VStack with restrictions -/

lemma scatter_map (c : ℝ → ℝ) : ∀ (iava : List ℕ) (v f : List ℝ), VStack.scatter (f.map c) iava (v.map c) = (VStack.scatter f iava v).map c := by
  intro iava
  induction iava with
  | nil => intro v f; simp [VStack.scatter]
  | cons i is ih =>
    intro v f
    cases v with
    | nil => simp [VStack.scatter]
    | cons a as =>
      have := ih as (f.set i a)
      simp only [VStack.scatter, List.map_set] at this
      simpa [VStack.scatter, List.zip_cons_cons] using this

lemma scatterLoop_cast (d : DT) (x : List ℝ) (τ : ℝ) : ∀ (ops : List ListOp) (iavas : List (List ℕ)) (f v : List ℝ),
    VStack.scatterLoop (fun op v => op.prox v τ) x ops iavas f = .ok v →
    VStackT.scatterLoop ⟨d, x⟩ τ (ops.map ListOp.toT) iavas ⟨d, f.map d.cast⟩ = .ok ⟨d, v.map d.cast⟩ := by
  intro ops
  induction ops with
  | nil =>
    intro iavas f v h
    cases iavas with
    | nil => simp only [VStack.scatterLoop] at h; cases h; rfl
    | cons a as => simp [VStack.scatterLoop] at h
  | cons op ops ih =>
    intro iavas f v h
    cases iavas with
    | nil => simp [VStack.scatterLoop] at h
    | cons a as =>
      cases hp : op.prox (VStack.gather a x) τ with
      | error e => simp [VStack.scatterLoop, hp, Bind.bind, Except.bind] at h
      | ok w =>
        by_cases hl : w.length ≠ a.length
        · simp [VStack.scatterLoop, hp, hl, Bind.bind, Except.bind] at h
        · simp only [VStack.scatterLoop, hp, hl, Bind.bind, Except.bind, if_false] at h
          have := ih as _ _ h
          simp only [List.map_cons, VStackT.scatterLoop, ListOp.toT, hp, hl, Bind.bind, Except.bind, Except.map, if_false]
          rw [scatter_map]
          exact this

/-- C104 for VStack with restrictions: for an array of integers every entry of the result loses its fractional part. -/
theorem C104_vstack_partial (ops : List ListOp) (iavas : List (List ℕ)) (x : List ℝ) (τ : ℝ) (v : List ℝ) (h : VStack.prox ops (.restr iavas) x τ = .ok v) :
    VStackT.prox (ops.map ListOp.toT) iavas ⟨.float, x⟩ τ = .ok ⟨.float, v⟩ ∧ VStackT.prox (ops.map ListOp.toT) iavas ⟨.int, x⟩ τ = .ok ⟨.int, v.map truncZ⟩ := by
  have key : ∀ d : DT, VStackT.prox (ops.map ListOp.toT) iavas ⟨d, x⟩ τ = .ok ⟨d, v.map d.cast⟩ := by
    intro d
    by_cases hτ : τ ≤ 0
    · simp [VStack.prox, checkTau, hτ] at h
    · simp only [VStack.prox, VStack.apply, checkTau, hτ, if_false] at h
      split_ifs at h with hn
      have := scatterLoop_cast d x τ ops iavas _ _ h
      have e : (List.replicate x.length (0 : ℝ)).map d.cast = List.replicate x.length 0 := by cases d <;> simp [DT.cast, truncZ_zero]
      rw [e] at this
      simp only [VStackT.prox, checkTau, hτ, if_false, hn, this]
  refine ⟨?_, key .int⟩
  have := key .float
  rwa [show DT.float.cast = id from rfl, List.map_id] at this

/-- `L2(b)` on 1-D arrays, `sigma = 1`. -/
noncomputable def l2List (b : ℝ) : ListOp where
  call := fun v => .ok (.num (1 / 2 * (v.map fun t => (t - b) ^ 2).sum))
  prox := fun v τ => checkTau τ (.ok (v.map fun t => (t + τ * b) / (1 + τ)))
  grad := fun v => .ok (v.map fun t => t - b)
  hasgrad := true

/-- C104 is false for VStack with restrictions: with `L2(b)` and `0 < b < 1` an array of integer zeros is never moved, whatever the step, while floats are. -/
theorem C104_vstack_refuted (b τ : ℝ) (hb : 0 < b) (hb1 : b < 1) (hτ : 0 < τ) :
    VStackT.prox [(l2List b).toT] [[0]] ⟨.int, [0]⟩ τ = .ok ⟨.int, [0]⟩ ∧ VStackT.prox [(l2List b).toT] [[0]] ⟨.float, [0]⟩ τ = .ok ⟨.float, [τ * b / (1 + τ)]⟩ ∧ 0 < τ * b / (1 + τ) := by
  have h : VStack.prox [l2List b] (.restr [[0]]) [0] τ = .ok [τ * b / (1 + τ)] := by
    simp [VStack.prox, VStack.apply, checkTau, not_le.2 hτ, StackBy.nx, VStack.scatterLoop, l2List, VStack.gather, VStack.scatter, Bind.bind, Except.bind]
  obtain ⟨h1, h2⟩ := C104_vstack_partial _ _ _ _ _ h
  have h0 : 0 < τ * b / (1 + τ) := by positivity
  refine ⟨?_, h1, h0⟩
  rw [show [(l2List b).toT] = [l2List b].map ListOp.toT from rfl, h2, List.map_singleton, truncZ_of_lt_one h0.le]
  rw [div_lt_one (by positivity)]
  nlinarith

/-! ## Intersection -/

lemma truncZ_of_abs_lt {v : ℝ} (h : |v| < 1) : truncZ v = 0 := by
  rcases le_or_gt 0 v with h0 | h0
  · exact truncZ_of_lt_one h0 (by rwa [abs_of_nonneg h0] at h)
  · have := truncZ_of_lt_one (v := -v) (by linarith) (by rwa [abs_of_neg h0] at h)
    rw [truncZ_neg] at this; linarith

/-- C104: on floats `IntersectionProjT` is the projection modelled elsewhere. -/
theorem C104_intersection_partial {k n : ℕ} (σ : Fin k → Fin k → ℝ) (niter : ℕ) (tol : ℝ) (x : Vec (Fin k × Fin n)) :
    IntersectionProjT σ niter tol ⟨.float, x⟩ = (IntersectionProj.result σ niter tol x).map fun v => ⟨.float, v⟩ := by
  have h : interBodyT (k := k) (n := n) .float σ tol = interBody σ tol := rfl
  simp only [IntersectionProjT, IntersectionProj.result, IntersectionProj, h]
  cases forRange (interBody σ tol) niter 0 (⟨x, fun _ _ _ => 0⟩ : InterState k n) <;> rfl

/-- The two rows `0` and `1`. -/
def zeroOne (n : ℕ) : Fin 2 × Fin n → ℤ := fun ij => if ij.1 = 0 then 0 else 1

/-- C104 is false for `IntersectionProj` (two rows that must coincide): for integer rows `0` and `1` it returns `0` and `0` after any number of iterations; the closest point has both rows `1/2`. -/
theorem C104_intersection_refuted (n niter : ℕ) (hn : 0 < n) (hi : 1 ≤ niter) (tol : ℝ) :
    IntersectionProjT (fun _ _ => 0) niter tol (stored .int (zeroOne n)) = .ok ⟨.int, 0⟩ ∧
      IsUniqueProj {y : Vec (Fin 2 × Fin n) | ∀ j, y (0, j) = y (1, j)} (stored .int (zeroOne n)).val (vmk fun _ => 1 / 2) := by
  have hpairs : interPairs 2 = [(0, 1)] := by decide
  have hshrink : ∀ t : ℝ, 0 ≤ t → t ≤ 1 → 0 ≤ interShrink 0 t ∧ interShrink 0 t < 1 ∧ (0 < t → 0 < interShrink 0 t) := by
    intro t h0 h1
    have e : interShrink 0 t = t * t / (t + 1e-10) := by simp [interShrink, abs_of_nonneg h0, max_eq_right h0]
    rw [e]
    have hd : 0 < t + 1e-10 := by norm_num; linarith
    refine ⟨by positivity, ?_, fun h => by positivity⟩
    rw [div_lt_one hd]; norm_num at hd ⊢; nlinarith
  have hstep : ∀ s : InterState 2 n, (∀ j, 0 ≤ s.x12 0 1 j ∧ s.x12 0 1 j < 1) → s.x = 0 → (interSweepT .int (fun _ _ => 0) s).x = 0 ∧
      ∀ j, 0 ≤ (interSweepT .int (fun _ _ => 0) s).x12 0 1 j ∧ (interSweepT .int (fun _ _ => 0) s).x12 0 1 j < 1 := by
    intro s h12 hx
    simp only [interSweepT, hpairs, List.foldl]
    constructor
    · ext ⟨i, j⟩
      obtain ⟨h0, h1⟩ := h12 j
      obtain ⟨h2, h3, -⟩ := hshrink _ h0 h1.le
      have hlt : |0.5 * (interShrink 0 (s.x12 0 1 j) - s.x12 0 1 j)| < 1 := by rw [abs_lt]; constructor <;> norm_num <;> linarith
      have hlt' : |-(0.5 * (interShrink 0 (s.x12 0 1 j) - s.x12 0 1 j))| < 1 := by rwa [abs_neg]
      fin_cases i
      · simpa [interPairT, interD, hx, DT.cast] using truncZ_of_abs_lt hlt
      · simpa [interPairT, interD, hx, DT.cast] using truncZ_of_abs_lt hlt'
    · intro j
      obtain ⟨h0, h1⟩ := h12 j
      obtain ⟨h2, h3, -⟩ := hshrink _ h0 h1.le
      simpa [interPairT, interD, hx] using ⟨h2, h3⟩
  have hfirst : ∀ s : InterState 2 n, (∀ j, s.x12 0 1 j = 0) → s.x = (stored .int (zeroOne n)).val → (interSweepT .int (fun _ _ => 0) s).x = 0 ∧
      ∀ j, 0 ≤ (interSweepT .int (fun _ _ => 0) s).x12 0 1 j ∧ (interSweepT .int (fun _ _ => 0) s).x12 0 1 j < 1 := by
    intro s h12 hx
    obtain ⟨h2, h3, h4⟩ := hshrink 1 zero_le_one le_rfl
    have h5 := h4 one_pos
    simp only [interSweepT, hpairs, List.foldl]
    constructor
    · ext ⟨i, j⟩
      have hlt : |0.5 * interShrink 0 1| < 1 := by rw [abs_lt]; constructor <;> norm_num <;> linarith
      have hlt' : |1 - 0.5 * interShrink 0 1| < 1 := by rw [abs_lt]; constructor <;> norm_num <;> linarith
      fin_cases i
      · simpa [interPairT, interD, hx, h12, DT.cast, stored, zeroOne] using truncZ_of_abs_lt hlt
      · simpa [interPairT, interD, hx, h12, DT.cast, stored, zeroOne] using truncZ_of_abs_lt hlt'
    · intro j
      simpa [interPairT, interD, hx, h12, stored, zeroOne] using ⟨h2, h3⟩
  constructor
  · obtain ⟨m, rfl⟩ := Nat.exists_eq_add_of_le' hi
    have hrun : ∀ (m i : ℕ) (s : InterState 2 n), (∀ j, 0 ≤ s.x12 0 1 j ∧ s.x12 0 1 j < 1) → s.x = 0 →
        ∃ s', forRange (interBodyT .int (fun _ _ => 0) tol) m i s = .ok s' ∧ s'.x = 0 := by
      intro m
      induction m with
      | zero => intro i s _ hx; exact ⟨s, rfl, hx⟩
      | succ m ih =>
        intro i s h12 hx
        obtain ⟨h1, h2⟩ := hstep s h12 hx
        simp only [forRange, interBodyT, hn.ne', if_false]
        split_ifs
        · exact ⟨_, rfl, h1⟩
        · exact ih _ _ h2 h1
    obtain ⟨h1, h2⟩ := hfirst ⟨(stored .int (zeroOne n)).val, fun _ _ _ => 0⟩ (fun _ => rfl) rfl
    have : ∃ s', forRange (interBodyT .int (fun _ _ => 0) tol) (m + 1) 0 ⟨(stored .int (zeroOne n)).val, fun _ _ _ => 0⟩ = .ok s' ∧ s'.x = 0 := by
      simp only [forRange, interBodyT, hn.ne', if_false]
      split_ifs
      · exact ⟨_, rfl, h1⟩
      · exact hrun _ _ _ h2 h1
    obtain ⟨s', h3, h4⟩ := this
    simp only [IntersectionProjT, Bind.bind, Except.bind]
    rw [show (stored .int (zeroOne n)).dt = .int from rfl, h3]
    simp only [h4]; rfl
  · have key : ∀ y : Vec (Fin 2 × Fin n), (∀ j, y (0, j) = y (1, j)) →
        ‖(stored .int (zeroOne n)).val - y‖ ^ 2 = ‖(stored .int (zeroOne n)).val - vmk fun _ => 1 / 2‖ ^ 2 + ‖y - vmk fun _ => 1 / 2‖ ^ 2 := by
      intro y hy
      simp only [EuclideanSpace.norm_sq_eq, Fintype.sum_prod_type, Fin.sum_univ_two, Real.norm_eq_abs, sq_abs, PiLp.sub_apply, stored, zeroOne, ← Finset.sum_add_distrib]
      refine Finset.sum_congr rfl fun j _ => ?_
      simp only [hy j, if_true, one_ne_zero, if_false, Int.cast_zero, Int.cast_one]
      ring
    refine ⟨⟨fun _ => rfl, fun y hy => ?_⟩, fun q hq => ?_⟩
    · refine le_of_sq_le_sq ?_ (norm_nonneg _)
      rw [key y hy]; nlinarith [sq_nonneg ‖y - vmk fun _ => 1 / 2‖]
    · have h1 := hq.2 (vmk fun _ => 1 / 2) (fun _ => rfl)
      have h2 := key q hq.1
      have h3 : ‖q - vmk fun _ => 1 / 2‖ ^ 2 ≤ 0 := by nlinarith [norm_nonneg ((stored .int (zeroOne n)).val - q)]
      have h4 : ‖q - vmk fun _ => 1 / 2‖ = 0 := by nlinarith [norm_nonneg (q - vmk fun _ => (1 / 2 : ℝ))]
      exact sub_eq_zero.1 (norm_eq_zero.1 h4)

/-! ## Dykstra's algorithm with more than two sets -/

/-- The vector `(a, b)`. -/
noncomputable def vec2 (a b : ℝ) : Vec (Fin 2) := vmk ![a, b]

lemma vec2_add (a b c d : ℝ) : vec2 a b + vec2 c d = vec2 (a + c) (b + d) := by
  ext i; fin_cases i <;> simp [vec2, vmk]

lemma vec2_sub (a b c d : ℝ) : vec2 a b - vec2 c d = vec2 (a - c) (b - d) := by
  ext i; fin_cases i <;> simp [vec2, vmk]

/-- The projections on `{x₁ ≥ 1/2}` (`Box`), on `{x₁ = x₂}` and on `{x₂ ≥ 1/2}` (`Box`); they return floats. -/
noncomputable def threeProj : Fin 3 → Arr (Fin 2) → Py (Arr (Fin 2))
  | 0, a => .ok ⟨.float, vec2 (max (a.val 0) (1 / 2)) (a.val 1)⟩
  | 1, a => .ok ⟨.float, vec2 ((a.val 0 + a.val 1) / 2) ((a.val 0 + a.val 1) / 2)⟩
  | 2, a => .ok ⟨.float, vec2 (a.val 0) (max (a.val 1) (1 / 2))⟩

/-- The three sets. -/
def threeSet : Fin 3 → Set (Vec (Fin 2))
  | 0 => {y | 1 / 2 ≤ y 0}
  | 1 => {y | y 0 = y 1}
  | 2 => {y | 1 / 2 ≤ y 1}

/-- Largest absolute value of the entries. -/
noncomputable def mx2 (v : Vec (Fin 2)) : ℝ := max |v 0| |v 1|

lemma truncZ_half : truncZ (1 / 2) = 0 := truncZ_of_lt_one (by norm_num) (by norm_num)

lemma truncZ_two : truncZ 2 = 2 := by simpa using truncZ_int 2

/-- One sweep of `parallel_dykstra_projection` over three projections, spelled out. -/
lemma cycT_sweep (projs : Fin 3 → Arr (Fin 2) → Py (Arr (Fin 2))) (d : DT) (tol : ℝ) (mx : Vec (Fin 2) → ℝ) (i : ℕ) (s : CycState (Arr (Fin 2)) 3) (hd : s.u.dt = d) (u0 u1 u2 : Arr (Fin 2))
    (h0 : projs 0 ((⟨d, s.u.val⟩ : Arr (Fin 2)).add (s.z 0)) = .ok u0) (h1 : projs 1 ((⟨d, vmk fun l => d.cast (u0.val l)⟩ : Arr (Fin 2)).add (s.z 1)) = .ok u1)
    (h2 : projs 2 ((⟨d, vmk fun l => d.cast (u1.val l)⟩ : Arr (Fin 2)).add (s.z 2)) = .ok u2) :
    ∃ s' b, cycT.body projs tol mx i s = .ok (s', b) ∧ s'.u = u2 ∧ s'.z 0 = ((s.z 0).add ⟨d, s.u.val⟩).sub u0 ∧ s'.z 1 = ((s.z 1).add ⟨d, vmk fun l => d.cast (u0.val l)⟩).sub u1 ∧
      s'.z 2 = ((s.z 2).add ⟨d, vmk fun l => d.cast (u1.val l)⟩).sub u2 ∧ (b = true → mx (s.u.val - u2.val) < tol) := by
  subst hd
  have p0 : prevIdx (0 : Fin 3) = 2 := rfl
  have p1 : prevIdx (1 : Fin 3) = 0 := rfl
  have p2 : prevIdx (2 : Fin 3) = 1 := rfl
  have e0 : (⟨0, by omega⟩ : Fin 3) = 0 := rfl
  have e1 : (⟨0 + 1, by omega⟩ : Fin 3) = 1 := rfl
  have e2 : (⟨0 + 1 + 1, by omega⟩ : Fin 3) = 2 := rfl
  refine ⟨_, _, by
    simp only [cycT.body, forRange, cycT.inner, show (0 : ℕ) < 3 by omega, show 0 + 1 < 3 by omega, show 0 + 1 + 1 < 3 by omega, dite_true, e0, e1, e2, p0, p1, p2, h0, Bind.bind, Except.bind,
      Pure.pure, Except.pure, Function.update_self, Function.update_of_ne (show (1 : Fin 3) ≠ 0 by decide), h1, Function.update_of_ne (show (2 : Fin 3) ≠ 0 by decide),
      Function.update_of_ne (show (2 : Fin 3) ≠ 1 by decide), h2, Bool.false_eq_true, if_false]
    rfl, rfl, ?_, ?_, ?_, ?_⟩
  · simp [Function.update_of_ne]
  · simp [Function.update_of_ne]
  · simp
  · intro hb
    exact (of_decide_eq_true hb).1

/-- C104 is false for `parallel_dykstra_projection` (`GenericIntersection` with more than two sets): `u_prev` has the dtype of the starting point in the first sweep, and what is lost then is never
recovered.  From `(0, 2)` held as integers the result is `(3/4, 3/4)` after any number of iterations; the closest point of the intersection is `(1, 1)`. -/
theorem C104_dykstra_cyclic_refuted (n : ℕ) (hn : 2 ≤ n) (tol : ℝ) (ht : tol ≤ 1) :
    (∃ s, parallelDykstraProjectionT (stored .int ![0, 2]) threeProj n tol mx2 = .ok s ∧ s.u.val = vec2 (3 / 4) (3 / 4)) ∧
      IsUniqueProj (⋂ i, threeSet i) (stored .int ![0, 2]).val (vec2 1 1) := by
  have hx0 : (stored .int ![0, 2] : Arr (Fin 2)) = ⟨.int, vec2 0 2⟩ := arr_ext rfl fun i => by fin_cases i <;> simp [stored, vec2, vmk]
  rw [hx0]
  have c0 : ∀ a b : ℝ, (vec2 a b) 0 = a := fun _ _ => rfl
  have c1 : ∀ a b : ℝ, (vec2 a b) 1 = b := fun _ _ => rfl
  have hfl : ∀ v : Vec (Fin 2), (vmk fun l => DT.float.cast (v l)) = v := fun v => rfl
  have hz : (0 : Vec (Fin 2)) = vec2 0 0 := by ext i; fin_cases i <;> simp [vec2, vmk]
  -- from the second sweep on nothing changes
  have hstay : ∀ i (s : CycState (Arr (Fin 2)) 3), s.u = ⟨.float, vec2 (3 / 4) (3 / 4)⟩ → (s.z 0).val = vec2 0 0 → (s.z 1).val = vec2 (-(5 / 4)) (5 / 4) → (s.z 2).val = vec2 0 0 →
      ∃ s' b, cycT.body threeProj tol mx2 i s = .ok (s', b) ∧ s'.u = ⟨.float, vec2 (3 / 4) (3 / 4)⟩ ∧ (s'.z 0).val = vec2 0 0 ∧ (s'.z 1).val = vec2 (-(5 / 4)) (5 / 4) ∧ (s'.z 2).val = vec2 0 0 := by
    intro i s hu h0 h1 h2
    obtain ⟨s', b, e1, e2, e3, e4, e5, -⟩ := cycT_sweep threeProj .float tol mx2 i s (by rw [hu]) ⟨.float, vec2 (3 / 4) (3 / 4)⟩ ⟨.float, vec2 (3 / 4) (3 / 4)⟩ ⟨.float, vec2 (3 / 4) (3 / 4)⟩
      (by simp only [threeProj, Arr.add, hu, h0, vec2_add, c0, c1]; norm_num) (by simp only [threeProj, Arr.add, hfl, h1, vec2_add, c0, c1]; norm_num)
      (by simp only [threeProj, Arr.add, hfl, h2, vec2_add, c0, c1]; norm_num)
    refine ⟨s', b, e1, e2, ?_, ?_, ?_⟩
    · simp only [e3, Arr.add, Arr.sub, hu, h0, vec2_add, vec2_sub]; norm_num
    · simp only [e4, Arr.add, Arr.sub, hfl, h1, vec2_add, vec2_sub]; norm_num
    · simp only [e5, Arr.add, Arr.sub, hfl, h2, vec2_add, vec2_sub]; norm_num
  have hrun : ∀ m i (s : CycState (Arr (Fin 2)) 3), s.u = ⟨.float, vec2 (3 / 4) (3 / 4)⟩ → (s.z 0).val = vec2 0 0 → (s.z 1).val = vec2 (-(5 / 4)) (5 / 4) → (s.z 2).val = vec2 0 0 →
      ∃ s', forRange (cycT.body threeProj tol mx2) m i s = .ok s' ∧ s'.u.val = vec2 (3 / 4) (3 / 4) := by
    intro m
    induction m with
    | zero => intro i s hu _ _ _; exact ⟨s, rfl, by rw [hu]⟩
    | succ m ih =>
      intro i s hu h0 h1 h2
      obtain ⟨s', b, e1, e2, e3, e4, e5⟩ := hstay i s hu h0 h1 h2
      simp only [forRange, e1]
      cases b with
      | true => exact ⟨s', rfl, by rw [e2]⟩
      | false => exact ih _ _ e2 e3 e4 e5
  constructor
  · obtain ⟨m, rfl⟩ := Nat.exists_eq_add_of_le' hn
    obtain ⟨s1, b1, e1, e2, e3, e4, e5, e6⟩ := cycT_sweep threeProj .int tol mx2 0 ⟨⟨.int, vec2 0 2⟩, fun _ => (⟨.int, vec2 0 2⟩ : Arr (Fin 2)).zerosLike, none⟩ rfl
      ⟨.float, vec2 (1 / 2) 2⟩ ⟨.float, vec2 1 1⟩ ⟨.float, vec2 1 1⟩
      (by simp only [threeProj, Arr.add, Arr.zerosLike, hz, vec2_add, c0, c1]; norm_num)
      (by
        have : (vmk fun l => DT.int.cast (vec2 (1 / 2) 2 l)) = vec2 0 2 := by ext i; fin_cases i <;> simp only [DT.cast, vec2, vmk] <;> [simpa using truncZ_half; simpa using truncZ_two]
        simp only [threeProj, Arr.add, Arr.zerosLike, this, hz, vec2_add, c0, c1]; norm_num)
      (by
        have : (vmk fun l => DT.int.cast (vec2 1 1 l)) = vec2 1 1 := by ext i; fin_cases i <;> simp [DT.cast, vec2, vmk, truncZ_one]
        simp only [threeProj, Arr.add, Arr.zerosLike, this, hz, vec2_add, c0, c1]; norm_num)
    have hb1 : b1 = false := by
      cases b1 with
      | false => rfl
      | true =>
        have := e6 rfl
        simp only [vec2_sub, mx2, c0, c1] at this
        norm_num at this
        linarith
    subst hb1
    have f0 : (s1.z 0).val = vec2 (-(1 / 2)) 0 := by simp only [e3, Arr.add, Arr.sub, Arr.zerosLike, hz, vec2_add, vec2_sub]; norm_num
    have f1 : (s1.z 1).val = vec2 (-1) 1 := by
      have : (vmk fun l => DT.int.cast (vec2 (1 / 2) 2 l)) = vec2 0 2 := by ext i; fin_cases i <;> simp only [DT.cast, vec2, vmk] <;> [simpa using truncZ_half; simpa using truncZ_two]
      simp only [e4, Arr.add, Arr.sub, Arr.zerosLike, this, hz, vec2_add, vec2_sub]; norm_num
    have f2 : (s1.z 2).val = vec2 0 0 := by
      have : (vmk fun l => DT.int.cast (vec2 1 1 l)) = vec2 1 1 := by ext i; fin_cases i <;> simp [DT.cast, vec2, vmk, truncZ_one]
      simp only [e5, Arr.add, Arr.sub, Arr.zerosLike, this, hz, vec2_add, vec2_sub]; norm_num
    obtain ⟨s2, b2, g1, g2, g3, g4, g5, -⟩ := cycT_sweep threeProj .float tol mx2 1 s1 (by rw [e2]) ⟨.float, vec2 (1 / 2) 1⟩ ⟨.float, vec2 (3 / 4) (3 / 4)⟩ ⟨.float, vec2 (3 / 4) (3 / 4)⟩
      (by simp only [threeProj, Arr.add, e2, f0, vec2_add, c0, c1]; norm_num) (by simp only [threeProj, Arr.add, hfl, f1, vec2_add, c0, c1]; norm_num)
      (by simp only [threeProj, Arr.add, hfl, f2, vec2_add, c0, c1]; norm_num)
    have k0 : (s2.z 0).val = vec2 0 0 := by simp only [g3, Arr.add, Arr.sub, e2, f0, vec2_add, vec2_sub]; norm_num
    have k1 : (s2.z 1).val = vec2 (-(5 / 4)) (5 / 4) := by simp only [g4, Arr.add, Arr.sub, hfl, f1, vec2_add, vec2_sub]; norm_num
    have k2 : (s2.z 2).val = vec2 0 0 := by simp only [g5, Arr.add, Arr.sub, hfl, f2, vec2_add, vec2_sub]; norm_num
    simp only [parallelDykstraProjectionT, forRange, e1, Bool.false_eq_true, if_false, zero_add, g1]
    cases b2 with
    | true => exact ⟨s2, rfl, by rw [g2]⟩
    | false => exact hrun _ _ _ g2 k0 k1 k2
  · have key : ∀ y : Vec (Fin 2), y 0 = y 1 → ‖vec2 0 2 - y‖ ^ 2 = ‖vec2 0 2 - vec2 1 1‖ ^ 2 + ‖y - vec2 1 1‖ ^ 2 := by
      intro y hy
      simp only [EuclideanSpace.norm_sq_eq, Fin.sum_univ_two, Real.norm_eq_abs, sq_abs, PiLp.sub_apply, c0, c1, hy]
      ring
    have hmem : ∀ y, y ∈ (⋂ i, threeSet i) → y 0 = y 1 := fun y hy => (Set.mem_iInter.1 hy 1 : y ∈ threeSet 1)
    have h11 : vec2 1 1 ∈ (⋂ i, threeSet i) := by
      refine Set.mem_iInter.2 fun i => ?_
      fin_cases i
      · show (1 / 2 : ℝ) ≤ 1; norm_num
      · rfl
      · show (1 / 2 : ℝ) ≤ 1; norm_num
    refine ⟨⟨h11, fun y hy => ?_⟩, fun q hq => ?_⟩
    · refine le_of_sq_le_sq ?_ (norm_nonneg _)
      rw [key y (hmem y hy)]; nlinarith [sq_nonneg ‖y - vec2 1 1‖]
    · have h1 := hq.2 (vec2 1 1) h11
      have h2 := key q (hmem q hq.1)
      have h3 : ‖q - vec2 1 1‖ ^ 2 ≤ 0 := by nlinarith [norm_nonneg (vec2 0 2 - q)]
      have h4 : ‖q - vec2 1 1‖ = 0 := by nlinarith [norm_nonneg (q - vec2 1 1)]
      exact sub_eq_zero.1 (norm_eq_zero.1 h4)

/-! ## Values -/

/-- C104, values of Huber: with integers stored every term of the sum loses its fractional part. -/
theorem C104_huber_call_partial (α : ℝ) (k : ι → ℤ) : HuberT.call α (stored .float k) = (Huber α).call (stored .float k).val ∧
    HuberT.call α (stored .int k) = .ok (.num (∑ i, truncZ (if |(k i : ℝ)| > α then |(k i : ℝ)| - α / 2 else |(k i : ℝ)| ^ 2 / (2 * α)))) := by
  classical
  constructor
  · simp only [HuberT.call, Huber, stored, Arr.put, Arr.zerosLike, DT.cast]
    refine congrArg _ (congrArg _ (Finset.sum_congr rfl fun i _ => ?_))
    by_cases h : |(k i : ℝ)| > α <;> simp [h]
  · simp only [HuberT.call, stored, Arr.put, Arr.zerosLike, DT.cast]
    refine congrArg _ (congrArg _ (Finset.sum_congr rfl fun i _ => ?_))
    by_cases h : |(k i : ℝ)| > α <;> simp [h]

/-- C104 is false for the values of Huber: for `alpha >= 1` an integer array of ones gets the value `0` instead of `n / (2 alpha)`. -/
theorem C104_huber_call_refuted (α : ℝ) (hα : 1 ≤ α) : HuberT.call α (stored .int fun _ : ι => 1) = .ok (.num 0) ∧
    HuberT.call α (stored .float fun _ : ι => 1) = .ok (.num (Fintype.card ι / (2 * α))) := by
  classical
  obtain ⟨h1, h2⟩ := C104_huber_call_partial (ι := ι) α fun _ => 1
  rw [h1, h2]
  have h3 : truncZ (1 / (2 * α)) = 0 := truncZ_of_lt_one (by positivity) (by rw [div_lt_one (by linarith)]; linarith)
  have h4 : ¬ (1 : ℝ) > α := not_lt.2 hα
  constructor
  · simp only [Int.cast_one, abs_one, h4, if_false, one_pow, h3, Finset.sum_const_zero]
  · simp only [Huber, stored, Int.cast_one, abs_one, h4, if_false, one_pow, Finset.sum_const, Finset.card_univ, nsmul_eq_mul, mul_one_div]

/-- C104, values of SCAD. -/
theorem C104_scad_call_partial (σ a : ℝ) (ha : 1 ≤ a) (hσ : 0 ≤ σ) (k : ι → ℤ) :
    SCADT.call σ a (stored .float k) = .ok (.num (∑ i, scadElem σ a (k i))) ∧ SCADT.call σ a (stored .int k) = .ok (.num (∑ i, truncZ (scadElem σ a (k i)))) := by
  classical
  have haσ : σ ≤ a * σ := by nlinarith
  have key : ∀ d : DT, SCADT.call σ a (stored d k) = .ok (.num (∑ i, d.cast (scadElem σ a (k i)))) := by
    intro d
    simp only [SCADT.call, stored, Arr.put, Arr.zerosLike, scadElem]
    refine congrArg _ (congrArg _ (Finset.sum_congr rfl fun i _ => ?_))
    by_cases h1 : |(k i : ℝ)| ≤ σ
    · have h2 : ¬ a * σ < |(k i : ℝ)| := by linarith
      simp [h1, h2, not_lt.2 h1]
    · by_cases h2 : |(k i : ℝ)| ≤ a * σ
      · simp [h1, h2, not_lt.2 h2, not_le.1 h1]
      · simp [h1, h2, not_le.1 h2]
  exact ⟨key .float, key .int⟩

/-! ## Concrete cases -/

example : ∃ (l m : ℕ) (fs : Fin l → TOp (Fin 2)) (gs : Fin m → TOp (Fin 2)) (pf : Fin l → ProxOp (Vec (Fin 2))) (pg : Fin m → ProxOp (Vec (Fin 2))),
    0 < l ∧ 1 < m ∧ (∀ j a, ((fs j).grad a).map Arr.val = (pf j).grad a.val) ∧ ∀ j, Erases (gs j) (pg j) :=
  ⟨1, 2, fun _ => ProxOp.toT { L1 (ι := Fin 2) 1 none with grad? := some fun x => .ok x, hasgrad := true }, fun _ => (L1 1 none).toT,
    fun _ => { L1 (ι := Fin 2) 1 none with grad? := some fun x => .ok x, hasgrad := true }, fun _ => L1 1 none, by norm_num, by norm_num, fun _ a => by
    simp only [ProxOp.toT]
    cases ProxOp.grad _ a.val <;> rfl, fun _ => C104_expression _⟩

example : VStack.prox [l2List (1 / 2)] (.restr [[0]]) [0] 1 = .ok [1 * (1 / 2) / (1 + 1)] := by
  norm_num [VStack.prox, VStack.apply, checkTau, StackBy.nx, VStack.scatterLoop, l2List, VStack.gather, VStack.scatter, Bind.bind, Except.bind]

end Verif
