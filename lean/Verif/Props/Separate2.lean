import Verif.Props.Separate
import Verif.Props.Stack
import Verif.Props.Symmetry2
import Verif.Model.Segment

/-! # C109, continued: the operators that keep parts apart, and the options that do not -/

open scoped RealInnerProductSpace

namespace Verif

variable {ι κ : Type} [Fintype ι] [Fintype κ]

/-- The part of an array with the entries `e k`. -/
noncomputable def restrict (e : κ → ι) : Vec ι →ₗ[ℝ] Vec κ where
  toFun x := vmk fun k => x (e k)
  map_add' x y := by ext k; rfl
  map_smul' c x := by ext k; rfl

lemma restrict_apply (e : κ → ι) (x : Vec ι) (k : κ) : restrict e x k = x (e k) := rfl

lemma part_entrywise {op : ProxOp (Vec ι)} {op' : ProxOp (Vec κ)} (e : κ → ι) {h : ℝ → ℝ → ℝ}
    (hd : op.proxdual? = none) (hd' : op'.proxdual? = none) (hg : op.grad? = none) (hg' : op'.grad? = none) (hs : op'.sigmame = op.sigmame)
    (hm : op.prox? = some fun x τ => checkTau τ (.ok (vmk fun i => h τ (x i)))) (hm' : op'.prox? = some fun x τ => checkTau τ (.ok (vmk fun i => h τ (x i)))) : PartOf (restrict e) op op' := by
  refine partOf_of_prox hd hd' hg hg' hs hm hm' fun x τ => ?_
  simp only [checkTau]
  exact PyLe.ite PyLe.error (PyLe.ok rfl)

/-- C109 for the entrywise penalties: the result on any set of entries depends on those entries only, and is the result for the smaller array. -/
theorem C109_entrywise (e : κ → ι) (σ a μ γ : ℝ) (lambertw : ℝ → ℝ) :
    PartOf (restrict e) (Huber a) (Huber a) ∧ PartOf (restrict e) (L0 σ) (L0 σ) ∧ PartOf (restrict e) (QuadraticEnvelopeCard μ) (QuadraticEnvelopeCard μ) ∧
      PartOf (restrict e) (RelaxedMS σ μ) (RelaxedMS σ μ) ∧
      (∀ op op', SCAD σ a = .ok op → SCAD σ a = .ok op' → PartOf (restrict e) op op') ∧ (∀ op op', Log σ γ = .ok op → Log σ γ = .ok op' → PartOf (restrict e) op op') ∧
      (∀ op op', Log1 σ a = .ok op → Log1 σ a = .ok op' → PartOf (restrict e) op op') ∧
      (∀ op op', ETP lambertw σ γ = .ok op → ETP lambertw σ γ = .ok op' → PartOf (restrict e) op op') ∧
      (∀ op op', Geman σ γ = .ok op → Geman σ γ = .ok op' → PartOf (restrict e) op op') := by
  classical
  refine ⟨?_, ?_, ?_, ?_, fun op op' h h' => ?_, fun op op' h h' => ?_, fun op op' h h' => ?_, fun op op' h h' => ?_, fun op op' h h' => ?_⟩
  · exact part_entrywise e (h := fun τ v => if |v| > a then softScalar v (τ * 1) else v / (1 + τ * (1 / a))) rfl rfl rfl rfl rfl rfl rfl
  · exact part_entrywise e (h := fun τ v => if |v| ≤ τ * σ then 0 else v) rfl rfl rfl rfl rfl rfl rfl
  · exact part_entrywise e (h := qecProx μ) rfl rfl rfl rfl rfl rfl rfl
  · refine partOf_of_prox rfl rfl rfl rfl rfl rfl rfl fun x τ => ?_
    simp only [checkTau]
    exact PyLe.ite PyLe.error (PyLe.ite PyLe.error (PyLe.ok rfl))
  · simp only [SCAD] at h h'
    split_ifs at h h'
    cases h; cases h'
    exact part_entrywise e (h := scadProx σ a) rfl rfl rfl rfl rfl rfl rfl
  · simp only [Log] at h h'
    split_ifs at h h' with h1 h2 h3
    · cases h; cases h'
      exact part_entrywise e (h := fun _ _ => 0) rfl rfl rfl rfl rfl rfl rfl
    · cases h; cases h'
      exact part_entrywise e (h := logProx σ γ) rfl rfl rfl rfl rfl rfl rfl
  · simp only [Log1] at h h'
    split_ifs at h h'
    · cases h; cases h'
      refine partOf_of_prox rfl rfl rfl rfl rfl rfl rfl fun x τ => ?_
      simp only [checkTau]
      exact PyLe.ite PyLe.error (PyLe.ok (map_zero _))
    · cases h; cases h'
      exact part_entrywise e (h := log1Prox σ a) rfl rfl rfl rfl rfl rfl rfl
  · simp only [ETP] at h h'
    split_ifs at h h'
    cases h; cases h'
    exact part_entrywise e (h := etpProx lambertw σ γ) rfl rfl rfl rfl rfl rfl rfl
  · simp only [Geman] at h h'
    split_ifs at h h'
    cases h; cases h'
    exact part_entrywise e (h := gemanProx σ γ) rfl rfl rfl rfl rfl rfl rfl

/-- C109 for `L1` and `Box`. -/
theorem C109_l1_box (e : κ → ι) (σ : ℝ) (g : Option (Vec ι)) (l u : ι → Bound) :
    PartOf (restrict e) (L1 σ g) (L1 σ (g.map (restrict e))) ∧ PartOf (restrict e) (Box l u) (Box (fun k => l (e k)) fun k => u (e k)) := by
  refine ⟨?_, partOf_of_prox rfl rfl rfl rfl rfl rfl rfl fun x τ => ?_⟩
  · have hp : ∀ x τ, PyLe (restrict e) ((L1 σ g).prox x τ) ((L1 σ (g.map (restrict e))).prox (restrict e x) τ) := fun x τ => by
      simp only [L1, ProxOp.prox, checkTau]
      refine PyLe.ite PyLe.error (PyLe.ok ?_)
      cases g <;> rfl
    refine ⟨hp, fun x τ => ?_, fun x => ?_⟩
    · cases g with
      | none =>
        simp only [L1, ProxOp.proxdual, checkTau, Option.map]
        exact PyLe.ite PyLe.error (PyLe.ok rfl)
      | some g =>
        simp only [L1, ProxOp.proxdual, checkTau, Option.map]
        exact PyLe.ite PyLe.error (PyLe.moreau (fun x τ => hp x τ) x τ)
    · exact (hp x 1).bind fun p => PyLe.pure (by rw [map_smul, map_sub]; rfl)
  · simp only [checkTau]
    exact PyLe.ite PyLe.error (PyLe.ok rfl)

/-- C109 for the operators on columns: any choice of columns is treated as if it were the whole matrix. -/
theorem C109_columns {ν : Type} [Fintype ν] (c : ν → κ) (σ ρ : ℝ) :
    PartOf (restrict fun ij : ι × ν => (ij.1, c ij.2)) (L21 (ι := ι) (κ := κ) σ) (L21 σ) ∧
      PartOf (restrict fun ij : ι × ν => (ij.1, c ij.2)) (L21plusL1 (ι := ι) (κ := κ) σ ρ) (L21plusL1 σ ρ) := by
  have hc : ∀ (x : Vec (ι × κ)) j, colNorm (restrict (fun ij : ι × ν => (ij.1, c ij.2)) x) j = colNorm x (c j) := fun x j => rfl
  have hs : ∀ (x : Vec (ι × κ)) τ, l1Shrink σ ρ τ (restrict (fun ij : ι × ν => (ij.1, c ij.2)) x) = restrict (fun ij : ι × ν => (ij.1, c ij.2)) (l1Shrink σ ρ τ x) := fun x τ => rfl
  have key : ∀ {q : κ → Prop} (a : Py (Vec (ι × κ))) (b : Py (Vec (ι × ν))) [Decidable (∃ ij : ι × κ, q ij.2)] [Decidable (∃ ij : ι × ν, q (c ij.2))],
      PyLe (restrict fun ij : ι × ν => (ij.1, c ij.2)) a b →
      PyLe (restrict fun ij : ι × ν => (ij.1, c ij.2)) (if ∃ ij : ι × κ, q ij.2 then .error .nanResult else a) (if ∃ ij : ι × ν, q (c ij.2) then .error .nanResult else b) := by
    intro q a b _ _ h
    by_cases h1 : ∃ ij : ι × κ, q ij.2
    · rw [if_pos h1]; exact PyLe.error
    · rw [if_neg h1, if_neg fun ⟨ij, hij⟩ => h1 ⟨(ij.1, c ij.2), hij⟩]; exact h
  have hp : ∀ (x : Vec (ι × κ)) τ, PyLe (restrict fun ij : ι × ν => (ij.1, c ij.2)) ((L21 σ).prox x τ) ((L21 σ).prox (restrict (fun ij : ι × ν => (ij.1, c ij.2)) x) τ) := fun x τ => by
    simp only [L21, ProxOp.prox, checkTau]
    exact PyLe.ite PyLe.error (key (q := fun j => max (colNorm x j) (τ * σ) = 0) _ _ (PyLe.ok rfl))
  refine ⟨⟨hp, fun x τ => ?_, fun x => ?_⟩, partOf_of_prox rfl rfl rfl rfl rfl rfl rfl fun x τ => ?_⟩
  · simp only [L21, ProxOp.proxdual, checkTau]
    exact PyLe.ite PyLe.error (key (q := fun j => max (colNorm x j) σ = 0) _ _ (PyLe.ok rfl))
  · exact (hp x 1).bind fun p => PyLe.pure (by rw [map_smul, map_sub]; rfl)
  · simp only [checkTau]
    exact PyLe.ite PyLe.error (key (q := fun j => shrinkFactor (σ * τ * (1 - ρ)) (colNorm (l1Shrink σ ρ τ x) j) = .error .nanResult) _ _ (PyLe.ok rfl))

/-! ## `VStack` -/

/-- An array of the wrong length is an error. -/
noncomputable def toVecPy (n : ℕ) (l : List ℝ) : Py (Vec (Fin n)) := if l.length = n then .ok (vmk fun i => l.getD i 0) else .error .valueError

/-- An operator on 1-D arrays of any length, on the arrays of length `n`; `proxdual` is inherited (ProxOperator.py:104-108). -/
noncomputable def ListOp.toOp (op : ListOp) (n : ℕ) : ProxOp (Vec (Fin n)) where
  call := fun x => op.call (List.ofFn x)
  prox? := some fun x τ => op.prox (List.ofFn x) τ >>= toVecPy n
  proxdual? := none
  grad? := some fun x => op.grad (List.ofFn x) >>= toVecPy n
  hasgrad := op.hasgrad
  sigmame := 1

/-- `VStack(ops, nn=nn)` or `VStack(ops, restr=...)` (VStack.py:49-128) as an operator itself. -/
noncomputable def vstackObj (ops : List ListOp) (b : StackBy) : ListOp := ⟨VStack.call ops b, VStack.prox ops b, VStack.grad ops b, VStack.hasgrad ops⟩

/-- The operator returns arrays of the length of its input. -/
def ListOp.KeepsLength (op : ListOp) : Prop := (∀ v τ p, op.prox v τ = .ok p → p.length = v.length) ∧ ∀ v p, op.grad v = .ok p → p.length = v.length

lemma hstack_parts {m : ListOp → List ℝ → Py (List ℝ)} (x : List ℝ) : ∀ (ops : List ListOp) (ns pre : List ℕ) (p : List ℝ), ops.length = ns.length → x.length = pre.sum + ns.sum →
    (∀ op ∈ ops, ∀ v p, m op v = .ok p → p.length = v.length) → VStack.hstack (pre ++ ns) m x ops pre.length = .ok p →
    p.length = ns.sum ∧ ∀ (k : ℕ) (hk : k < ops.length) (hk' : k < ns.length), m ops[k] ((x.drop (pre.sum + (ns.take k).sum)).take ns[k]) = .ok ((p.drop (ns.take k).sum).take ns[k])
  | [], [], pre, p, _, _, _, h => by
    cases h
    exact ⟨rfl, fun k hk => absurd hk (by simp)⟩
  | [], _ :: _, _, _, hl, _, _, _ => by simp at hl
  | _ :: _, [], _, _, hl, _, _, _ => by simp at hl
  | op :: ops, n :: ns, pre, p, hl, hx, hm, h => by
    simp only [VStack.hstack, slice_eq] at h
    cases hv : m op ((x.drop pre.sum).take n) with
    | error e => rw [py_ok_bind, hv] at h; cases h
    | ok v =>
      rw [py_ok_bind, hv, py_ok_bind] at h
      cases hr : VStack.hstack (pre ++ n :: ns) m x ops (pre.length + 1) with
      | error e => rw [hr] at h; cases h
      | ok q =>
        rw [hr, py_ok_bind] at h
        cases h
        simp only [List.sum_cons] at hx
        have hvl : v.length = n := by
          rw [hm op List.mem_cons_self _ _ hv, List.length_take, List.length_drop]; omega
        obtain ⟨h1, h2⟩ := hstack_parts x ops ns (pre ++ [n]) q (by simpa using hl) (by simp; omega) (fun op' ho => hm op' (List.mem_cons_of_mem _ ho)) (by simpa using hr)
        refine ⟨by simp [hvl, h1], fun k hk hk' => ?_⟩
        cases k with
        | zero => simpa [← hvl] using hvl ▸ hv
        | succ k =>
          have := h2 k (by simpa using hk) (by simpa using hk')
          simp only [List.getElem_cons_succ, List.take_succ_cons, List.sum_cons]
          have e1 : (v ++ q).drop (n + (ns.take k).sum) = q.drop (ns.take k).sum := by rw [← List.drop_drop, ← hvl, List.drop_left]
          rw [e1]
          simpa [add_assoc] using this

lemma scatterLoop_parts {m : ListOp → List ℝ → Py (List ℝ)} (x : List ℝ) : ∀ (ops : List ListOp) (iavas : List (List ℕ)) (f p : List ℝ), iavas.flatten.Nodup →
    (∀ i ∈ iavas.flatten, i < f.length) → VStack.scatterLoop m x ops iavas f = .ok p →
    ∀ (k : ℕ) (hk : k < ops.length) (hk' : k < iavas.length), m ops[k] (VStack.gather iavas[k] x) = .ok (VStack.gather iavas[k] p)
  | [], _, _, _, _, _, _ => fun k hk => absurd hk (by simp)
  | _ :: _, [], _, _, _, _, _ => fun k _ hk => absurd hk (by simp)
  | op :: ops, i :: is, f, p, hnd, hr, h => by
    simp only [List.flatten_cons] at hnd hr
    rw [List.nodup_append] at hnd
    simp only [VStack.scatterLoop] at h
    cases hv : m op (VStack.gather i x) with
    | error e => rw [hv] at h; cases h
    | ok v =>
      rw [hv, py_ok_bind] at h
      split_ifs at h with hl
      have hvl : v.length = i.length := not_not.1 hl
      intro k hk hk'
      cases k with
      | zero =>
        simp only [List.getElem_cons_zero]
        rw [hv]
        have := gather_scatter f i v hnd.1 (fun j hj => hr j (List.mem_append_left _ hj)) hvl
        rw [← this]
        refine congrArg Except.ok (List.map_congr_left fun j hj => ?_)
        exact (scatterLoop_notMem _ _ _ _ _ _ h j fun hj' => hnd.2.2 j hj j hj' rfl).1.symm
      | succ k =>
        simp only [List.getElem_cons_succ]
        exact scatterLoop_parts x ops is _ p hnd.2.1 (fun j hj => by rw [scatter_length]; exact hr j (List.mem_append_right _ hj)) h k (by simpa using hk) (by simpa using hk')

lemma toVecPy_eq {n : ℕ} {l : List ℝ} {v : Vec (Fin n)} : toVecPy n l = .ok v ↔ l = List.ofFn v := by
  constructor
  · intro h
    simp only [toVecPy] at h
    split_ifs at h with hl
    cases h
    refine List.ext_getElem (by simp [hl]) fun i h1 h2 => ?_
    simp [List.getD_eq_getElem?_getD, h1]
  · rintro rfl
    simp only [toVecPy, List.length_ofFn, if_true]
    refine congrArg Except.ok ?_
    ext i
    simp [List.getD_eq_getElem?_getD]

/-- From lists to vectors. -/
lemma partOf_toOp {op op' : ListOp} {N n : ℕ} (e : Fin n → Fin N) (sel : List ℝ → List ℝ) (hsel : ∀ x : Vec (Fin N), sel (List.ofFn x) = List.ofFn (restrict e x))
    (hprox : ∀ x τ p, x.length = N → p.length = N → op.prox x τ = .ok p → op'.prox (sel x) τ = .ok (sel p))
    (hgrad : ∀ x p, x.length = N → p.length = N → op.grad x = .ok p → op'.grad (sel x) = .ok (sel p)) : PartOf (restrict e) (op.toOp N) (op'.toOp n) := by
  refine partOf_of_prox' rfl rfl rfl rfl (fun x τ => ?_) rfl rfl fun x => ?_
  · intro r hr
    cases hv : op.prox (List.ofFn x) τ with
    | error e => rw [hv] at hr; cases hr
    | ok l =>
      rw [hv, py_ok_bind] at hr
      have hl := toVecPy_eq.1 hr
      have := hprox _ _ _ (by simp) (by rw [hl]; simp) hv
      rw [hsel] at this
      rw [this, py_ok_bind, hl, hsel]
      exact toVecPy_eq.2 rfl
  · intro r hr
    cases hv : op.grad (List.ofFn x) with
    | error e => rw [hv] at hr; cases hr
    | ok l =>
      rw [hv, py_ok_bind] at hr
      have hl := toVecPy_eq.1 hr
      have := hgrad _ _ (by simp) (by rw [hl]; simp) hv
      rw [hsel] at this
      rw [this, py_ok_bind, hl, hsel]
      exact toVecPy_eq.2 rfl

lemma take_sum_lt (nn : List ℕ) (k : ℕ) (hk : k < nn.length) (i : Fin nn[k]) : (nn.take k).sum + i < nn.sum := by
  have h1 : nn.sum = (nn.take k).sum + (nn.drop k).sum := (List.sum_take_add_sum_drop nn k).symm
  rw [List.drop_eq_getElem_cons hk, List.sum_cons] at h1
  have := i.2
  omega

/-- C109 for `VStack(ops, nn=...)` with as many operators as sizes: on each block it is the operator of that block, whatever the other blocks contain. -/
theorem C109_vstack_nn (ops : List ListOp) (nn : List ℕ) (hl : ops.length = nn.length) (hops : ∀ op ∈ ops, op.KeepsLength) (k : ℕ) (hk : k < ops.length) (hk' : k < nn.length) :
    PartOf (restrict fun i : Fin nn[k] => (⟨(nn.take k).sum + i, take_sum_lt nn k hk' i⟩ : Fin nn.sum)) ((vstackObj ops (.nn nn)).toOp nn.sum) (ops[k].toOp nn[k]) := by
  have hne : ops.isEmpty = false := by cases ops with
    | nil => simp at hk
    | cons => rfl
  have hlt : (nn.take k).sum + nn[k] ≤ nn.sum := by
    have h1 : nn.sum = (nn.take k).sum + (nn.drop k).sum := (List.sum_take_add_sum_drop nn k).symm
    rw [List.drop_eq_getElem_cons hk', List.sum_cons] at h1
    omega
  refine partOf_toOp _ (fun x => (x.drop (nn.take k).sum).take nn[k]) (fun x => ?_) (fun x τ p hx hp h => ?_) fun x p hx hp h => ?_
  · refine List.ext_getElem (by simp; omega) fun i h1 h2 => ?_
    simp [restrict, vmk]
  · simp only [vstackObj, VStack.prox, checkTau, VStack.apply, StackBy.nx, hx, ne_eq, not_true, if_false, hne, Bool.false_eq_true] at h
    split_ifs at h
    have := (hstack_parts x ops nn [] p hl (by simpa using hx) (fun op ho v p => (hops op ho).1 v τ p) (by simpa using h)).2 k hk hk'
    simpa using this
  · simp only [vstackObj, VStack.grad, VStack.apply, StackBy.nx, hx, ne_eq, not_true, if_false, hne, Bool.false_eq_true] at h
    have := (hstack_parts x ops nn [] p hl (by simpa using hx) (fun op ho v p => (hops op ho).2 v p) (by simpa using h)).2 k hk hk'
    simpa using this

/-- C109 for `VStack(ops, restr=...)` with disjoint index lists. -/
theorem C109_vstack_restr (ops : List ListOp) (iavas : List (List ℕ)) (N : ℕ) (hnd : iavas.flatten.Nodup) (hr : ∀ i ∈ iavas.flatten, i < N) (k : ℕ) (hk : k < ops.length) (hk' : k < iavas.length) :
    PartOf (restrict fun i : Fin iavas[k].length => (⟨iavas[k][i], hr _ (List.mem_flatten.2 ⟨_, List.getElem_mem hk', List.getElem_mem i.2⟩)⟩ : Fin N)) ((vstackObj ops (.restr iavas)).toOp N)
      (ops[k].toOp iavas[k].length) := by
  refine partOf_toOp _ (VStack.gather iavas[k]) (fun x => ?_) (fun x τ p hx hp h => ?_) fun x p hx hp h => ?_
  · refine List.ext_getElem (by simp [VStack.gather]) fun i h1 h2 => ?_
    have h3 : i < iavas[k].length := by simpa [VStack.gather] using h1
    have h4 : iavas[k][i] < N := hr _ (List.mem_flatten.2 ⟨_, List.getElem_mem hk', List.getElem_mem h3⟩)
    simp [VStack.gather, restrict, vmk, List.getD_eq_getElem?_getD, h4]
  · simp only [vstackObj, VStack.prox, checkTau, VStack.apply] at h
    split_ifs at h
    exact scatterLoop_parts x ops iavas _ p hnd (by simpa [hx] using hr) h k hk hk'
  · simp only [vstackObj, VStack.grad, VStack.apply] at h
    split_ifs at h
    exact scatterLoop_parts x ops iavas _ p hnd (by simpa [hx] using hr) h k hk hk'

/-! ## Options that couple the parts -/

/-- `L2(sigma=sigma)` on 1-D arrays without data (proximal/L2.py). -/
noncomputable def l2Parts (σ : ℝ) : ListOp where
  call := fun v => .ok (.num (σ / 2 * (v.map fun t => t ^ 2).sum))
  prox := fun v τ => checkTau τ (.ok (v.map fun t => t / (1 + τ * σ)))
  grad := fun v => .ok (v.map fun t => σ * t)
  hasgrad := true

lemma l2List_keeps (σ : ℝ) : (l2Parts σ).KeepsLength := by
  refine ⟨fun v τ p h => ?_, fun v p h => ?_⟩
  · simp only [l2Parts, checkTau] at h
    split_ifs at h
    cases h
    simp
  · cases h
    simp

/-- `VStack([L2(sigma=σ₁), L2(sigma=σ₂)], nn=[1, 1])`: two entries, each with its own weight. -/
noncomputable def twoWeights (σ₁ σ₂ : ℝ) : ProxOp (Vec (Fin 2)) := (vstackObj [l2Parts σ₁, l2Parts σ₂] (.nn [1, 1])).toOp 2

/-- The first entry. -/
noncomputable def firstEntry : Vec (Fin 2) →ₗ[ℝ] Vec (Fin 1) := restrict fun _ : Fin 1 => (0 : Fin 2)

lemma twoWeights_part (σ₁ σ₂ : ℝ) : PartOf firstEntry (twoWeights σ₁ σ₂) ((l2Parts σ₁).toOp 1) := by
  have := C109_vstack_nn [l2Parts σ₁, l2Parts σ₂] [1, 1] rfl (by simp [l2List_keeps]) 0 (by simp) (by simp)
  refine (congrArg (fun π => PartOf π (twoWeights σ₁ σ₂) ((l2Parts σ₁).toOp 1)) ?_).mp this
  ext x i
  fin_cases i
  rfl

lemma twoWeights_call (σ₁ σ₂ : ℝ) (x : Vec (Fin 2)) : (twoWeights σ₁ σ₂).call x = .ok (.num (σ₁ / 2 * x 0 ^ 2 + σ₂ / 2 * x 1 ^ 2)) := by
  simp [twoWeights, ListOp.toOp, vstackObj, VStack.call, StackBy.nx, VStack.callLoop, VStack.slice, l2Parts, List.ofFn_succ, CallVal.toReal, py_ok_bind]

lemma twoWeights_grad (σ₁ σ₂ : ℝ) (x : Vec (Fin 2)) : (twoWeights σ₁ σ₂).grad x = .ok (vmk ![σ₁ * x 0, σ₂ * x 1]) := by
  have : VStack.grad [l2Parts σ₁, l2Parts σ₂] (.nn [1, 1]) (List.ofFn x) = .ok [σ₁ * x 0, σ₂ * x 1] := by
    simp [VStack.grad, VStack.apply, StackBy.nx, VStack.hstack, VStack.slice, l2Parts, List.ofFn_succ, py_ok_bind]
  simp only [twoWeights, ListOp.toOp, vstackObj, ProxOp.grad, this, py_ok_bind]
  exact toVecPy_eq.2 (by simp [List.ofFn_succ])

lemma twoWeights_prox (σ₁ σ₂ : ℝ) (x : Vec (Fin 2)) {τ : ℝ} (hτ : 0 < τ) : (twoWeights σ₁ σ₂).prox x τ = .ok (vmk ![x 0 / (1 + τ * σ₁), x 1 / (1 + τ * σ₂)]) := by
  have : VStack.prox [l2Parts σ₁, l2Parts σ₂] (.nn [1, 1]) (List.ofFn x) τ = .ok [x 0 / (1 + τ * σ₁), x 1 / (1 + τ * σ₂)] := by
    simp [VStack.prox, checkTau, hτ.not_ge, VStack.apply, StackBy.nx, VStack.hstack, VStack.slice, l2Parts, List.ofFn_succ, py_ok_bind]
  simp only [twoWeights, ListOp.toOp, vstackObj, ProxOp.prox, this, py_ok_bind]
  exact toVecPy_eq.2 (by simp [List.ofFn_succ])

lemma l2List_call (σ : ℝ) (x : Vec (Fin 1)) : ((l2Parts σ).toOp 1).call x = .ok (.num (σ / 2 * x 0 ^ 2)) := by
  simp [ListOp.toOp, l2Parts]

lemma l2List_grad (σ : ℝ) (x : Vec (Fin 1)) : ((l2Parts σ).toOp 1).grad x = .ok (vmk ![σ * x 0]) := by
  simp only [ListOp.toOp, ProxOp.grad, l2Parts, py_ok_bind]
  exact toVecPy_eq.2 (by simp)

lemma l2List_prox (σ : ℝ) (x : Vec (Fin 1)) {τ : ℝ} (hτ : 0 < τ) : ((l2Parts σ).toOp 1).prox x τ = .ok (vmk ![x 0 / (1 + τ * σ)]) := by
  simp only [ListOp.toOp, ProxOp.prox, l2Parts, checkTau, hτ.not_ge, if_false, py_ok_bind]
  exact toVecPy_eq.2 (by simp)

lemma l1zero_prox {ν : Type} [Fintype ν] (x : Vec ν) {τ : ℝ} (hτ : 0 < τ) : (L1 0 none).prox x τ = .ok x := by
  simp only [L1, ProxOp.prox, checkTau, hτ.not_ge, if_false]
  refine congrArg Except.ok ?_
  ext i
  simp [softthreshold, softScalar, vmk, npsign_mul_abs]

/-- The default arguments of `ProximalGradient`, one iteration: `tau=None` selects backtracking from `tau = 1`. -/
noncomputable def pgDefault (nb : ℕ) : PGArgs := ⟨none, false, 1 / 2, .scalar 1, 1, nb, .none, 1, none⟩

lemma twoWeights_backtrack (a b : ℝ) : ∀ (n : ℕ) (t : ℝ) (z : Vec (Fin 2)), 0 < t → t ≤ 1 / 2 → (∃ r, 0 < r ∧ r ≤ 1 / 2 ∧ z 0 = a * (1 - r)) →
    ∃ p, backtrack (twoWeights 1 4) (L1 0 none) (vmk ![a, b]) 1 (1 / 2) n t (some z) = .ok p ∧ ∃ r, 0 < r ∧ r ≤ 1 / 2 ∧ p.1 0 = a * (1 - r)
  | 0, t, z, _, _, hz => ⟨(z, t), rfl, hz⟩
  | n + 1, t, z, h0, h1, _ => by
    have hz : ∃ r, 0 < r ∧ r ≤ 1 / 2 ∧ ((vmk ![a, b] : Vec (Fin 2)) - t • vmk ![1 * a, 4 * b]) 0 = a * (1 - r) := ⟨t, h0, h1, by simp [vmk]; ring⟩
    simp only [backtrack, twoWeights_grad, py_ok_bind, one_mul, l1zero_prox _ h0, twoWeights_call]
    split_ifs
    · exact ⟨_, rfl, by simpa using hz⟩
    · exact twoWeights_backtrack a b n (t * (1 / 2)) _ (by linarith) (by linarith) (by simpa using hz)

lemma twoWeights_first (a b : ℝ) (hb : b ≠ 0) (n : ℕ) :
    ∃ p, backtrack (twoWeights 1 4) (L1 0 none) (vmk ![a, b]) 1 (1 / 2) (n + 2) 1 none = .ok p ∧ ∃ r, 0 < r ∧ r ≤ 1 / 2 ∧ p.1 0 = a * (1 - r) := by
  obtain ⟨p, h, hp⟩ := twoWeights_backtrack a b n (1 * (1 / 2) * (1 / 2)) ((vmk ![a, b] : Vec (Fin 2)) - (1 * (1 / 2) : ℝ) • vmk ![1 * a, 4 * b]) (by norm_num) (by norm_num)
    ⟨1 / 2, by norm_num, le_rfl, by simp [vmk]; ring⟩
  have hb2 : 0 < b ^ 2 := by positivity
  have e1 : ¬ (CallVal.num (1 / 2 * ((vmk ![a, b] : Vec (Fin 2)) - (1 : ℝ) • vmk ![1 * a, 4 * b]) 0 ^ 2 + 4 / 2 * ((vmk ![a, b] : Vec (Fin 2)) - (1 : ℝ) • vmk ![1 * a, 4 * b]) 1 ^ 2)).toReal ≤
      (CallVal.num (1 / 2 * a ^ 2 + 4 / 2 * b ^ 2)).toReal + ⟪(vmk ![1 * a, 4 * b] : Vec (Fin 2)), (vmk ![a, b] : Vec (Fin 2)) - (1 : ℝ) • vmk ![1 * a, 4 * b] - vmk ![a, b]⟫ +
      1 / (2 * 1) * ‖(vmk ![a, b] : Vec (Fin 2)) - (1 : ℝ) • vmk ![1 * a, 4 * b] - vmk ![a, b]‖ ^ 2 := by
    simp [CallVal.toReal, vmk, EuclideanSpace.norm_sq_eq, Fin.sum_univ_two]
    nlinarith
  rw [backtrack]
  simp only [twoWeights_grad, py_ok_bind, one_mul, l1zero_prox _ one_pos, twoWeights_call]
  rw [if_neg (by simpa [vmk] using e1), backtrack]
  simp only [twoWeights_grad, py_ok_bind, one_mul, l1zero_prox _ (show (0 : ℝ) < 1 / 2 by norm_num), twoWeights_call]
  split_ifs
  · exact ⟨_, rfl, 1 / 2, by norm_num, le_rfl, by simp [vmk]; ring⟩
  · exact ⟨p, by simpa using h, hp⟩

lemma l2List_first (a : ℝ) (n : ℕ) : backtrack ((l2Parts 1).toOp 1) (L1 0 none) (vmk ![a]) 1 (1 / 2) (n + 1) 1 none = .ok (0, 1) := by
  have hz : (vmk ![a] : Vec (Fin 1)) - (1 : ℝ) • vmk ![1 * a] = 0 := by
    ext i; fin_cases i; simp [vmk]
  have hm : ![a] 0 = a := rfl
  rw [backtrack]
  simp only [l2List_grad, py_ok_bind, one_mul, l1zero_prox _ one_pos, l2List_call, hm]
  simp only [one_mul] at hz
  rw [hz, if_pos]
  simp [CallVal.toReal, vmk, EuclideanSpace.norm_sq_eq]
  nlinarith

/-- C109 fails for `ProximalGradient` with backtracking, its default: the step is chosen for the whole array, so the first entry of the result is not the result for the first entry.
Alone, the first entry is solved exactly in one iteration; next to an entry with a larger weight it is not, whatever its value. -/
theorem C109_backtracking_refuted (a b : ℝ) (ha : a ≠ 0) (hb : b ≠ 0) (nb : ℕ) :
    ∃ s s', ProximalGradient (twoWeights 1 4) (L1 0 none) (vmk ![a, b]) (pgDefault (nb + 2)) = .ok s ∧
      ProximalGradient ((l2Parts 1).toOp 1) (L1 0 none) (firstEntry (vmk ![a, b])) (pgDefault (nb + 2)) = .ok s' ∧ s'.x 0 = 0 ∧ firstEntry s.x 0 ≠ 0 ∧
      PartOf firstEntry (twoWeights 1 4) ((l2Parts 1).toOp 1) ∧ PartOf firstEntry (L1 0 none) (L1 0 none) := by
  obtain ⟨⟨x, t⟩, h, r, hr0, hr1, hx⟩ := twoWeights_first a b hb nb
  have h' := l2List_first a (nb + 1)
  rw [one_div] at h h'
  have hf : firstEntry (vmk ![a, b]) = vmk ![a] := by
    ext i; fin_cases i; rfl
  refine ⟨⟨x, x + (0 : ℝ) • (x - vmk ![a, b]), 1, t, none, [x]⟩, ⟨0, 0 + (0 : ℝ) • (0 - vmk ![a]), 1, 1, none, [0]⟩, ?_, ?_, rfl, ?_, twoWeights_part 1 4, ?_⟩
  · simp [ProximalGradient, pgDefault, StepSpec.printCheck, forRange, PG.body, StepSpec.at, PG.step, h, py_ok_bind, momentum, Functor.map, Except.map]
  · rw [hf]
    simp [ProximalGradient, pgDefault, StepSpec.printCheck, forRange, PG.body, StepSpec.at, PG.step, h', py_ok_bind, momentum, Functor.map, Except.map]
  · change x 0 ≠ 0
    rw [hx]
    exact mul_ne_zero ha (by linarith)
  · exact (C109_l1_box (fun _ : Fin 1 => (0 : Fin 2)) 0 none (fun _ => none) fun _ => none).1

/-- C109 fails for `ProximalPoint` with a tolerance: the test looks at the whole objective, so the first entry is iterated further than it would be alone. -/
theorem C109_tolerance_refuted :
    ∃ (x0 : Vec (Fin 2)) (s : PPState (Vec (Fin 2))) (s' : PPState (Vec (Fin 1))), ProximalPoint (twoWeights 1 3) x0 1 3 (some (4 / 5)) = .ok s ∧
      ProximalPoint ((l2Parts 1).toOp 1) (firstEntry x0) 1 3 (some (4 / 5)) = .ok s' ∧ s'.x 0 = 1 / 4 ∧ firstEntry s.x 0 = 1 / 8 ∧
      PartOf firstEntry (twoWeights 1 3) ((l2Parts 1).toOp 1) := by
  have hf : firstEntry (vmk ![1, 10]) = vmk ![1] := by
    ext i; fin_cases i; rfl
  have d : decide (|1 - (0 : ℝ)| < 4 / 5) = false := by norm_num
  have d2 : decide (|1 - (1 / 32 : ℝ) / (1 / 8)| < 4 / 5) = true := by norm_num [abs_lt]
  have d3 : decide (|1 - (79 / 128 : ℝ) / (19 / 2)| < 4 / 5) = false := by norm_num [abs_lt]
  have p1 : ∀ u v : ℝ, (twoWeights 1 3).prox (vmk ![u, v]) 1 = .ok (vmk ![u / 2, v / 4]) := fun u v => by
    rw [twoWeights_prox _ _ _ one_pos]; norm_num [vmk]
  have p2 : ∀ u : ℝ, ((l2Parts 1).toOp 1).prox (vmk ![u]) 1 = .ok (vmk ![u / 2]) := fun u => by
    rw [l2List_prox _ _ one_pos]; norm_num [vmk]
  refine ⟨vmk ![1, 10], ⟨vmk ![1 / 2 / 2 / 2, 10 / 4 / 4 / 4], some (1 / 2 * (1 / 2 / 2 / 2) ^ 2 + 3 / 2 * (10 / 4 / 4 / 4) ^ 2), [vmk ![1 / 2, 10 / 4], vmk ![1 / 2 / 2, 10 / 4 / 4], vmk ![1 / 2 / 2 / 2, 10 / 4 / 4 / 4]]⟩,
    ⟨vmk ![1 / 2 / 2], some (1 / 32), [vmk ![1 / 2], vmk ![1 / 2 / 2]]⟩, ?_, ?_, ?_, ?_, twoWeights_part 1 3⟩
  · have v1 : (1 / 2 * (1 / 2) ^ 2 + 3 / 2 * (10 / 4) ^ 2 : ℝ) = 19 / 2 := by norm_num
    have v2 : (1 / 2 * (1 / 2 / 2) ^ 2 + 3 / 2 * (10 / 4 / 4) ^ 2 : ℝ) = 79 / 128 := by norm_num
    have c1 : (twoWeights 1 3).call (vmk ![1 / 2, 10 / 4]) = .ok (.num (19 / 2)) := by rw [twoWeights_call, ← v1]; rfl
    have c2 : (twoWeights 1 3).call (vmk ![1 / 2 / 2, 10 / 4 / 4]) = .ok (.num (79 / 128)) := by rw [twoWeights_call, ← v2]; rfl
    have c3 : (twoWeights 1 3).call (vmk ![1 / 2 / 2 / 2, 10 / 4 / 4 / 4]) = .ok (.num (1 / 2 * (1 / 2 / 2 / 2) ^ 2 + 3 / 2 * (10 / 4 / 4 / 4) ^ 2)) := by rw [twoWeights_call]; rfl
    simp only [ProximalPoint, forRange, ProximalPoint.body, p1, py_ok_bind, c1, c2, c3, pyRatio, CallVal.toReal, d, d3, pure, Except.pure, show ¬ (19 / 2 : ℝ) = 0 by norm_num, show ¬ (79 / 128 : ℝ) = 0 by norm_num, if_false, Bool.false_eq_true]
    split_ifs <;> rfl
  · rw [hf]
    have c1 : ((l2Parts 1).toOp 1).call (vmk ![1 / 2]) = .ok (.num (1 / 8)) := by rw [l2List_call]; norm_num [vmk]
    have c2 : ((l2Parts 1).toOp 1).call (vmk ![1 / 2 / 2]) = .ok (.num (1 / 32)) := by rw [l2List_call]; norm_num [vmk]
    simp only [ProximalPoint, forRange, ProximalPoint.body, p2, py_ok_bind, c1, c2, pyRatio, CallVal.toReal, d, d2, pure, Except.pure, show ¬ (1 / 8 : ℝ) = 0 by norm_num, if_false, if_true, Bool.false_eq_true]
    rfl
  · norm_num [vmk]
  · change (1 / 2 / 2 / 2 : ℝ) = 1 / 8
    norm_num

/-! ## Concrete cases -/

/-- ADMM on two entries with their own weights and a threshold: the first entry of what it returns is what it returns for the first entry. -/
example (x : Vec (Fin 2)) (n : ℕ) (s : SplitState (Vec (Fin 2))) (h : ADMM (twoWeights 1 4) (L1 2 none) (some x) none (1 / 2) n false = .ok s) :
    ADMM ((l2Parts 1).toOp 1) (L1 2 none) (some (firstEntry x)) none (1 / 2) n false = .ok (s.map firstEntry) :=
  C109_admm (twoWeights_part 1 4) (C109_l1_box (fun _ : Fin 1 => (0 : Fin 2)) 2 none (fun _ => none) fun _ => none).1 (some x) none _ _ _ _ h

/-- It does return. -/
example (a b : ℝ) : ∃ s, ADMM (twoWeights 1 4) (L1 0 none) (some (vmk ![a, b])) none 1 1 false = .ok s := by
  refine ⟨⟨vmk ![a / 2, b / 5], vmk ![a / 2, b / 5], 0, [(vmk ![a / 2, b / 5], vmk ![a / 2, b / 5])]⟩, ?_⟩
  have hp : (twoWeights 1 4).prox (vmk ![a, b]) 1 = .ok (vmk ![a / 2, b / 5]) := by
    rw [twoWeights_prox _ _ _ one_pos]; norm_num [vmk]
  simp [ADMM, x0z0Init, forRange, ADMM.body, hp, py_ok_bind, l1zero_prox _ one_pos]

/-- Multiplication by `d`, entry by entry. -/
noncomputable def diagMap {ν : Type} [Fintype ν] (d : ν → ℝ) : Vec ν →ₗ[ℝ] Vec ν where
  toFun x := vmk fun i => d i * x i
  map_add' x y := by ext i; simp [vmk, mul_add]
  map_smul' c x := by ext i; simp [vmk, mul_left_comm]

/-- A diagonal operator, which is made of its parts. -/
noncomputable def diagOp {ν : Type} [Fintype ν] (d : ν → ℝ) : LinOp (Vec ν) (Vec ν) :=
  ⟨diagMap d, diagMap d, fun x y => by simp [diagMap, vmk, PiLp.inner_apply, mul_left_comm, mul_assoc]⟩

lemma diagOp_part (e : κ → ι) (d : ι → ℝ) : PartLin (restrict e) (restrict e) (diagOp d) (diagOp fun k => d (e k)) := ⟨fun _ => rfl, fun _ => rfl⟩

example (e : κ → ι) (d : ι → ℝ) (x : Vec ι) (n : ℕ) (s : PDState (Vec ι) (Vec ι)) (h : PrimalDual (Huber 1) (L0 2) (diagOp d) x none none (.scalar 1) (.scalar (1 / 2)) 1 n true = .ok s) :
    PrimalDual (Huber 1) (L0 2) (diagOp fun k => d (e k)) (restrict e x) none none (.scalar 1) (.scalar (1 / 2)) 1 n true = .ok (s.map (restrict e) (restrict e)) :=
  C109_primaldual (C109_entrywise e 2 1 1 1 id).1 (C109_entrywise e 2 1 1 1 id).2.1 (diagOp_part e d) x none none _ _ _ _ _ _ h

end Verif
