import Verif.Props.Dtype4

/-! # C104, continued: an array of integers holds integers

A value with a fractional part that a method computes is either stored in an array of floats or loses its fractional part: no method and no solver returns an array of integers with
an entry that is not a whole number, so a caller may rely on the dtype of what is returned. -/

open scoped RealInnerProductSpace

namespace Verif

variable {ι κ : Type} [Fintype ι] [Fintype κ]

/-- The dtype of the array can hold its entries. -/
def Storable (a : Arr ι) : Prop := a.dt = .int → ∀ i, ∃ k : ℤ, a.val i = k

/-- A method that returns arrays whose dtype can hold their entries. -/
def KeepsStorable (m : Arr ι → Py (Arr ι)) : Prop := ∀ a r, Storable a → m a = .ok r → Storable r

lemma stored_storable (d : DT) (k : ι → ℤ) : Storable (stored d k) := fun _ i => ⟨k i, rfl⟩

lemma Storable.zerosLike (a : Arr ι) : Storable a.zerosLike := fun _ _ => ⟨0, by simp [Arr.zerosLike]⟩

lemma Storable.add {a b : Arr ι} (ha : Storable a) (hb : Storable b) : Storable (a.add b) := by
  intro h i
  unfold Arr.add at h ⊢
  cases hda : a.dt <;> cases hdb : b.dt <;> simp [hda, hdb, DT.join] at h
  obtain ⟨k, hk⟩ := ha hda i
  obtain ⟨l, hl⟩ := hb hdb i
  exact ⟨k + l, by simp [hk, hl]⟩

lemma Storable.sub {a b : Arr ι} (ha : Storable a) (hb : Storable b) : Storable (a.sub b) := by
  intro h i
  unfold Arr.sub at h ⊢
  cases hda : a.dt <;> cases hdb : b.dt <;> simp [hda, hdb, DT.join] at h
  obtain ⟨k, hk⟩ := ha hda i
  obtain ⟨l, hl⟩ := hb hdb i
  exact ⟨k - l, by simp [hk, hl]⟩

lemma Storable.twice {a : Arr ι} (ha : Storable a) : Storable a.twice := by
  intro h i
  obtain ⟨k, hk⟩ := ha h i
  exact ⟨2 * k, by simp [Arr.twice, hk]⟩

lemma Storable.put {a : Arr ι} (ha : Storable a) (mask : ι → Prop) (v : ι → ℝ) : Storable (a.put mask v) := by
  classical
  intro h i
  have hd : a.dt = .int := h
  change ∃ k : ℤ, (if mask i then a.dt.cast (v i) else a.val i) = k
  split_ifs
  · rw [hd]; exact (truncZ_spec (v i)).1
  · exact ha hd i

lemma npsign_int (v : ℝ) : ∃ k : ℤ, npsign v = k := by
  unfold npsign
  split_ifs
  · exact ⟨1, by simp⟩
  · exact ⟨-1, by simp⟩
  · exact ⟨0, by simp⟩

lemma Storable.mulSign {a : Arr ι} (ha : Storable a) (x : Vec ι) : Storable (⟨a.dt, vmk fun i => a.val i * npsign (x i)⟩ : Arr ι) := by
  intro h i
  obtain ⟨k, hk⟩ := ha h i
  obtain ⟨l, hl⟩ := npsign_int (x i)
  exact ⟨k * l, by simp [hk, hl]⟩

lemma Storable.abs {a : Arr ι} (ha : Storable a) : Storable (⟨a.dt, vmk fun i => |a.val i|⟩ : Arr ι) := by
  intro h i
  obtain ⟨k, hk⟩ := ha h i
  exact ⟨|k|, by simp [hk]⟩

lemma keeps_checkTau {m : Arr ι → Py (Arr ι)} (h : KeepsStorable m) (τ : ℝ) : KeepsStorable fun a => checkTau τ (m a) := by
  intro a r ha hr
  simp only [checkTau] at hr
  split_ifs at hr
  exact h a r ha hr

/-- C104: methods made of arithmetic with a float, and every method with masked assignments, return arrays whose dtype can hold their entries. -/
theorem C104_storable_operators (f : ProxOp (Vec ι)) (α σ a γ μ τ : ℝ) (argsort : Vec ι → List ι) (radius : ℕ) (q : Vec ι) :
    KeepsStorable (fun x => f.toT.prox x τ) ∧ KeepsStorable (fun x : Arr ι => HuberT.prox α x τ) ∧ KeepsStorable (fun x : Arr ι => SCADT.prox σ a x τ) ∧
      KeepsStorable (fun x : Arr ι => LogT.prox σ γ x τ) ∧ KeepsStorable (fun x : Arr ι => QECT.prox μ x τ) ∧ KeepsStorable (fun x : Arr ι => L0T.prox σ x τ) ∧
      KeepsStorable (fun x : Arr ι => L0BallT.prox argsort radius x τ) ∧ KeepsStorable (fun x : Arr ι => L2qT.prox σ α q x τ) := by
  refine ⟨?_, ?_, ?_, ?_, ?_, ?_, ?_, ?_⟩
  · intro x r _ hr h
    simp only [ProxOp.toT] at hr
    cases hp : f.prox x.val τ with
    | error e => rw [hp] at hr; cases hr
    | ok v => rw [hp] at hr; cases hr; cases h
  · exact keeps_checkTau (fun x r _ hr => by cases hr; exact ((Storable.zerosLike x).put _ _).put _ _) τ
  · exact keeps_checkTau (fun x r hx hr => by cases hr; exact (hx.put _ _).put _ _) τ
  · exact keeps_checkTau (fun x r _ hr => by cases hr; exact ((Storable.zerosLike x).put _ _).mulSign _) τ
  · refine keeps_checkTau (fun x r hx hr => ?_) τ
    cases hr
    by_cases h1 : τ ≥ 1
    · simp only [h1, if_true]; exact (hx.abs.put _ _).mulSign _
    · simp only [h1, if_false]; exact (hx.abs.put _ _).mulSign _
  · exact keeps_checkTau (fun x r hx hr => by cases hr; exact hx.put _ _) τ
  · exact keeps_checkTau (fun x r hx hr => by cases hr; exact hx.put _ _) τ
  · refine keeps_checkTau (fun x r hx hr => ?_) τ
    simp only [Bind.bind, Except.bind] at hr
    split at hr
    · cases hr
    · split_ifs at hr
      cases hr
      intro h
      cases h

/-- C104: the arrays `ADMM` returns have a dtype that can hold their entries, if those of the two operators do. -/
theorem C104_storable_admm {tf tg : TOp ι} {τ : ℝ} (hf : KeepsStorable fun x => tf.prox x τ) (hg : KeepsStorable fun x => tg.prox x τ) (x0 : Arr ι) (z0 : Option (Arr ι))
    (h0 : Storable x0) (hz : ∀ z ∈ z0, Storable z) (n : ℕ) (gfirst : Bool) (s : SplitState (Arr ι)) (hs : ADMMT tf tg (some x0) z0 τ n gfirst = .ok s) :
    Storable s.x ∧ Storable s.z ∧ Storable s.u := by
  have key : ∀ z, Storable z → forRange (ADMMT.body tf tg τ gfirst) n 0 ⟨x0, z, x0.zerosLike, []⟩ = .ok s → Storable s.x ∧ Storable s.z ∧ Storable s.u := by
    intro z hz' h
    refine forRange_inv (I := fun s : SplitState (Arr ι) => Storable s.x ∧ Storable s.z ∧ Storable s.u) (fun i s s' b hI hb => ?_) n 0 ⟨x0, z, x0.zerosLike, []⟩ s ⟨h0, hz', Storable.zerosLike x0⟩ h
    obtain ⟨i1, i2, i3⟩ := hI
    cases gfirst with
    | true =>
      simp only [ADMMT.body, if_true, Bind.bind, Except.bind] at hb
      split at hb
      · cases hb
      · rename_i zz e1
        split at hb
        · cases hb
        · rename_i xx e2
          cases hb
          have k1 := hg _ _ (i1.add i3) e1
          have k2 := hf _ _ (k1.sub i3) e2
          exact ⟨k2, k1, (i3.add k2).sub k1⟩
    | false =>
      simp only [ADMMT.body, Bool.false_eq_true, if_false, Bind.bind, Except.bind] at hb
      split at hb
      · cases hb
      · rename_i xx e1
        split at hb
        · cases hb
        · rename_i zz e2
          cases hb
          have k1 := hf _ _ (i2.sub i3) e1
          have k2 := hg _ _ (k1.add i3) e2
          exact ⟨k1, k2, (i3.add k1).sub k2⟩
  cases z0 with
  | none => exact key x0 h0 hs
  | some z => exact key z (hz z rfl) hs

/-- C104: the array `dykstra_two` returns has a dtype that can hold its entries, if those of the two operators do. -/
theorem C104_storable_dykstra_two {m1 m2 : Arr ι → Py (Arr ι)} (h1 : KeepsStorable m1) (h2 : KeepsStorable m2) (x0 : Arr ι) (h0 : Storable x0) (n : ℕ) (tol : ℝ) (mx : Vec ι → ℝ)
    (s : DykState (Arr ι)) (hs : dykstraTwoT x0 m1 m2 n tol mx = .ok s) : Storable s.x ∧ Storable s.p ∧ Storable s.q := by
  refine forRange_inv (I := fun s : DykState (Arr ι) => Storable s.x ∧ Storable s.p ∧ Storable s.q) (fun i s s' b hI hb => ?_) n 0 _ s
    ⟨h0, Storable.zerosLike x0, Storable.zerosLike x0⟩ hs
  obtain ⟨i1, i2, i3⟩ := hI
  simp only [dykstraTwoT.body, Bind.bind, Except.bind] at hb
  split at hb
  · cases hb
  · rename_i y e1
    split at hb
    · cases hb
    · rename_i x e2
      cases hb
      have k1 := h1 _ _ (i1.add i2) e1
      have k2 := h2 _ _ (k1.add i3) e2
      exact ⟨k2, (i2.add i1).sub k1, (i3.add k1).sub k2⟩

/-- C104: `DouglasRachfordSplitting` keeps `y` as an array that can hold its entries, and from the first iteration on it holds floats. -/
theorem C104_storable_douglasrachford {tf tg : TOp ι} {τ : ℝ} (hf : KeepsStorable fun x => tf.prox x τ) (hg : KeepsStorable fun x => tg.prox x τ) (η : ℝ) (x0 : Arr ι)
    (h0 : Storable x0) (n : ℕ) (gfirst : Bool) (s : DRState (Arr ι)) (hs : DRT tf tg x0 τ η n gfirst = .ok s) :
    Storable s.y ∧ (∀ x ∈ s.x, Storable x) ∧ (s.x.isSome → s.y.dt = .float) := by
  have hj : ∀ d : DT, d.join .float = .float := fun d => by cases d <;> rfl
  refine forRange_inv (I := fun s : DRState (Arr ι) => Storable s.y ∧ (∀ x ∈ s.x, Storable x) ∧ (s.x.isSome → s.y.dt = .float)) (fun i s s' b hI hb => ?_) n 0 _ s
    ⟨h0, by simp, by simp⟩ hs
  obtain ⟨i1, -, -⟩ := hI
  have hsc : ∀ (a : Arr ι) (y : Arr ι), Storable (y.add (a.scale η)) ∧ (y.add (a.scale η)).dt = .float := fun a y => by
    have : (y.add (a.scale η)).dt = .float := hj _
    exact ⟨fun h => absurd (this.symm.trans h) (by decide), this⟩
  cases gfirst with
  | true =>
    simp only [DRT.body, if_true, Bind.bind, Except.bind] at hb
    split at hb
    · cases hb
    · rename_i x e1
      split at hb
      · cases hb
      · cases hb
        refine ⟨(hsc _ _).1, ?_, fun _ => (hsc _ _).2⟩
        intro x' hx'
        cases hx'
        exact hg _ _ i1 e1
  | false =>
    simp only [DRT.body, Bool.false_eq_true, if_false, Bind.bind, Except.bind] at hb
    split at hb
    · cases hb
    · rename_i x e1
      split at hb
      · cases hb
      · cases hb
        refine ⟨(hsc _ _).1, ?_, fun _ => (hsc _ _).2⟩
        intro x' hx'
        cases hx'
        exact hf _ _ i1 e1

/-- The hypotheses are met by a whole-number start and the L1 norm with the L0 penalty. -/
example (k : ι → ℤ) (n : ℕ) (s : SplitState (Arr ι)) (hs : ADMMT (L1 1 none).toT ⟨(L1 1 none).toT.call, L0T.prox 1, (L1 1 none).toT.grad⟩ (some (stored .int k)) none (1 / 2) n false = .ok s) :
    Storable s.x :=
  (C104_storable_admm (tf := (L1 1 none).toT) (C104_storable_operators (L1 1 none) 1 1 1 1 1 (1 / 2) (fun _ => []) 0 0).1
    (C104_storable_operators (L1 1 none) 1 1 1 1 1 (1 / 2) (fun _ => []) 0 0).2.2.2.2.2.1 (stored .int k) none (stored_storable _ _) (by simp) n false s hs).1

end Verif
