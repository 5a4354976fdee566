import Verif.Model.GPGSum
import Verif.Props.GPGWeights

/-! # C53: the check of the weights in double precision, for any number of functions -/

namespace Verif

/-- The exact sum of the numbers at the leaves. -/
def AddTree.total (f : ℕ → ℕ) : AddTree → ℕ
  | .zero => 0
  | .leaf i => f i
  | .add l r => l.total f + r.total f

lemma seqTree_total (f : ℕ → ℕ) (t : AddTree) (lo n : ℕ) : (seqTree t lo n).total f = t.total f + ∑ i ∈ Finset.range n, f (lo + i) := by
  induction n with
  | zero => simp [seqTree]
  | succ n ih => rw [seqTree, AddTree.total, ih, Finset.sum_range_succ, AddTree.total, add_assoc]

lemma strideTree_total (f : ℕ → ℕ) (lo j q : ℕ) : (strideTree lo j q).total f = ∑ i ∈ Finset.range (q + 1), f (lo + 8 * i + j) := by
  induction q with
  | zero => simp [strideTree, AddTree.total]
  | succ q ih => rw [strideTree, AddTree.total, ih, Finset.sum_range_succ _ (q + 1), AddTree.total]

lemma stride_sum (f : ℕ → ℕ) (q : ℕ) : ∑ i ∈ Finset.range (8 * q), f i =
    (∑ i ∈ Finset.range q, f (8 * i)) + (∑ i ∈ Finset.range q, f (8 * i + 1)) + ((∑ i ∈ Finset.range q, f (8 * i + 2)) + ∑ i ∈ Finset.range q, f (8 * i + 3)) +
      ((∑ i ∈ Finset.range q, f (8 * i + 4)) + (∑ i ∈ Finset.range q, f (8 * i + 5)) + ((∑ i ∈ Finset.range q, f (8 * i + 6)) + ∑ i ∈ Finset.range q, f (8 * i + 7))) := by
  induction q with
  | zero => simp
  | succ q ih =>
    rw [show 8 * (q + 1) = 8 * q + 8 by ring]
    simp only [Finset.sum_range_succ, ih, show 8 * q + 8 = 8 * q + 7 + 1 by ring, show ∀ n, ∑ i ∈ Finset.range (n + 7), f i = ∑ i ∈ Finset.range n, f i + f n + f (n + 1) + f (n + 2) + f (n + 3) + f (n + 4) + f (n + 5) + f (n + 6) from fun n => by
      simp only [show n + 7 = n + 1 + 1 + 1 + 1 + 1 + 1 + 1 by ring, Finset.sum_range_succ]]
    ring

/-- C53: numpy's pairwise summation adds every entry exactly once. -/
theorem C53_sum_order (f : ℕ → ℕ) (lo n : ℕ) : (npSumTree lo n).total f = ∑ i ∈ Finset.range n, f (lo + i) := by
  induction n using Nat.strong_induction_on generalizing lo with
  | _ n ih =>
    rw [npSumTree]
    split_ifs with h1 h2
    · rw [seqTree_total]; simp [AddTree.total]
    · rw [seqTree_total]
      simp only [AddTree.total, strideTree_total, show n / 8 - 1 + 1 = n / 8 by omega]
      have h := stride_sum (fun i => f (lo + i)) (n / 8)
      simp only [← add_assoc] at h ⊢
      simp only [add_zero] at h ⊢
      rw [← h]
      conv_rhs => rw [← Nat.div_add_mod n 8, Finset.sum_range_add]
      simp only [← add_assoc]
    · simp only [AddTree.total]
      rw [ih _ (by omega), ih _ (by omega)]
      conv_rhs => rw [show n = (n / 2 - n / 2 % 8) + (n - (n / 2 - n / 2 % 8)) by omega, Finset.sum_range_add]
      simp only [← add_assoc]

lemma binary64_dyadic {j k : ℕ} (hj : j ≤ 2 ^ 52) : binary64 ((j : ℝ) / 2 ^ k) = (j : ℝ) / 2 ^ k := by
  rcases Nat.eq_zero_or_pos j with rfl | h0
  · simp [binary64, fmtBits_zero]
  set l := Nat.log 2 j
  have hl1 : 2 ^ l ≤ j := Nat.pow_log_le_self 2 h0.ne'
  have hl2 : j < 2 ^ (l + 1) := Nat.lt_pow_succ_log_self (by norm_num) j
  have hl : l ≤ 52 := by
    by_contra hc
    push Not at hc
    have : 2 ^ 53 ≤ 2 ^ l := Nat.pow_le_pow_right (by norm_num) hc
    omega
  have e1 : (2 : ℝ) ^ ((l : ℤ) - k) = 2 ^ l / 2 ^ k := by rw [zpow_sub₀ (by norm_num), zpow_natCast, zpow_natCast]
  have hK : (j : ℝ) / 2 ^ k * 2 ^ (52 - ((l : ℤ) - k)) = ((j * 2 ^ (52 - l) : ℕ) : ℤ) := by
    rw [show (52 : ℤ) - (l - k) = ((52 - l : ℕ) : ℤ) + k by push_cast [Nat.cast_sub hl]; ring, zpow_add₀ (by norm_num), zpow_natCast, zpow_natCast]
    push_cast
    field_simp
  refine bin64_eq ((l : ℤ) - k) ((j * 2 ^ (52 - l) : ℕ) : ℤ) ?_ ?_ (.inl ?_) ?_
  · rw [e1]; gcongr; exact_mod_cast hl1
  · rw [show (l : ℤ) - k + 1 = ((l + 1 : ℕ) : ℤ) - k by push_cast; ring, zpow_sub₀ (by norm_num), zpow_natCast, zpow_natCast]
    gcongr; exact_mod_cast hl2
  · rw [hK]; constructor <;> linarith
  · rw [← hK, mul_comm ((j : ℝ) / 2 ^ k), ← mul_assoc, ← zpow_add₀ (by norm_num)]
    rw [show (l : ℤ) - k - 52 + (52 - (l - k)) = 0 by ring, zpow_zero, one_mul]

lemma eval_dyadic {ws : List ℝ} {k : ℕ} {c : ℕ → ℕ} (hc : ∀ i, ws.getD i 0 = (c i : ℝ) / 2 ^ k) (t : AddTree) (ht : t.total c ≤ 2 ^ 52) : t.eval ws = (t.total c : ℝ) / 2 ^ k := by
  induction t with
  | zero => simp [AddTree.eval, AddTree.total]
  | leaf i => exact hc i
  | add l r ihl ihr =>
    simp only [AddTree.total] at ht
    rw [AddTree.eval, ihl (by omega), ihr (by omega), ← add_div, ← Nat.cast_add, binary64_dyadic ht, AddTree.total]

/-- C53: weights that are non-negative multiples of `2^-k` (`k ≤ 52`) and sum to one are accepted, whatever their number. -/
theorem C53_dyadic_weights {k : ℕ} (hk : k ≤ 52) (cs : List ℕ) (hcs : cs.sum = 2 ^ k) :
    gpgWeightsNp cs.length (some (cs.map fun c : ℕ => (c : ℝ) / 2 ^ k)) = .ok (cs.map fun c : ℕ => (c : ℝ) / 2 ^ k) := by
  have hc : ∀ i, (cs.map fun c : ℕ => (c : ℝ) / 2 ^ k).getD i 0 = ((cs.getD i 0 : ℕ) : ℝ) / 2 ^ k := fun i => by
    simp only [List.getD_eq_getElem?_getD, List.getElem?_map]
    cases cs[i]? <;> simp
  have htot : (npSumTree 0 cs.length).total (fun i => cs.getD i 0) = 2 ^ k := by
    rw [C53_sum_order, ← hcs]
    simp only [zero_add]
    rw [← Fin.sum_univ_eq_sum_range (fun i => cs.getD i 0) cs.length]
    conv_rhs => rw [← List.ofFn_getElem (xs := cs), List.sum_ofFn]
    exact Finset.sum_congr rfl fun i _ => by simp [List.getD_eq_getElem?_getD]
  have hs : npSum64 (cs.map fun c : ℕ => (c : ℝ) / 2 ^ k) = 1 := by
    rw [npSum64, List.length_map, eval_dyadic hc _ (by rw [htot]; exact Nat.pow_le_pow_right (by norm_num) hk), htot]
    push_cast
    exact div_self (by positivity)
  simp only [gpgWeightsNp, List.length_map, ne_eq, not_true, false_or]
  rw [if_neg (not_not.2 hs)]

/-- C53: the default weights of `2^k` functions (`k ≤ 52`) are accepted. -/
theorem C53_default_power_of_two {k : ℕ} (hk : k ≤ 52) : gpgWeightsNp (2 ^ k) none = .ok (List.replicate (2 ^ k) (1 / 2 ^ k)) := by
  have h := C53_dyadic_weights hk (List.replicate (2 ^ k) 1) (by simp)
  have e : binary64 (1 / ((2 ^ k : ℕ) : ℝ)) = 1 / 2 ^ k := by
    have := binary64_dyadic (j := 1) (k := k) (by norm_num)
    push_cast at this ⊢
    exact this
  rw [List.length_replicate, List.map_replicate, Nat.cast_one] at h
  simp only [gpgWeightsNp] at h ⊢
  rw [e]
  exact h

/-- C53: below eight functions `np.sum` adds one after the other. -/
theorem C53_sum_short {ws : List ℝ} (h : ws.length < 8) : npSum64 ws = sum64 ws := by
  have key : ∀ n, n ≤ ws.length → (seqTree .zero 0 n).eval ws = sum64 (ws.take n) := by
    intro n hn
    induction n with
    | zero => simp [seqTree, AddTree.eval, sum64]
    | succ n ih =>
      rw [seqTree, AddTree.eval, ih (by omega), AddTree.eval, zero_add, List.take_succ_eq_append_getElem (by omega)]
      simp only [sum64, List.foldl_append, List.foldl]
      rw [List.getD_eq_getElem?_getD, List.getElem?_eq_getElem (by omega), Option.getD_some]
  rw [npSum64, npSumTree, if_pos h, key _ le_rfl, List.take_length]

lemma npSum64_default_8 : npSum64 (List.replicate 8 (binary64 (1 / ((8 : ℕ) : ℝ)))) = (1 : ℝ) := by
  have hw : binary64 (1 / ((8 : ℕ) : ℝ)) = (1 / 8 : ℝ) := bin64_eq (-3) 4503599627370496 (by norm_num) (by norm_num) (.inl ⟨by norm_num, by norm_num⟩) (by norm_num)
  have d0 : binary64 ((1 / 8 : ℝ) + (1 / 8 : ℝ)) = (1 / 4 : ℝ) := bin64_eq (-2) 4503599627370496 (by norm_num) (by norm_num) (.inl ⟨by norm_num, by norm_num⟩) (by norm_num)
  have d1 : binary64 ((1 / 4 : ℝ) + (1 / 4 : ℝ)) = (1 / 2 : ℝ) := bin64_eq (-1) 4503599627370496 (by norm_num) (by norm_num) (.inl ⟨by norm_num, by norm_num⟩) (by norm_num)
  have d2 : binary64 ((1 / 2 : ℝ) + (1 / 2 : ℝ)) = (1 : ℝ) := bin64_eq (0) 4503599627370496 (by norm_num) (by norm_num) (.inl ⟨by norm_num, by norm_num⟩) (by norm_num)
  rw [hw, npSum64, List.length_replicate, npSumTree, if_neg (by norm_num), dif_pos (by norm_num)]
  simp only [Nat.reduceDiv, Nat.reduceMod, Nat.reduceSub, Nat.reduceMul, strideTree, seqTree, AddTree.eval, List.replicate, List.getD_cons_succ, List.getD_cons_zero, Nat.reduceAdd, zero_add, add_zero, d0, d1, d2]

lemma npSum64_default_9 : npSum64 (List.replicate 9 (binary64 (1 / ((9 : ℕ) : ℝ)))) = (1 : ℝ) := by
  have hw : binary64 (1 / ((9 : ℕ) : ℝ)) = (2001599834386887 / 18014398509481984 : ℝ) := bin64_eq (-4) 8006399337547548 (by norm_num) (by norm_num) (.inl ⟨by norm_num, by norm_num⟩) (by norm_num)
  have d0 : binary64 ((2001599834386887 / 18014398509481984 : ℝ) + (2001599834386887 / 18014398509481984 : ℝ)) = (2001599834386887 / 9007199254740992 : ℝ) := bin64_eq (-3) 8006399337547548 (by norm_num) (by norm_num) (.inl ⟨by norm_num, by norm_num⟩) (by norm_num)
  have d1 : binary64 ((2001599834386887 / 9007199254740992 : ℝ) + (2001599834386887 / 9007199254740992 : ℝ)) = (2001599834386887 / 4503599627370496 : ℝ) := bin64_eq (-2) 8006399337547548 (by norm_num) (by norm_num) (.inl ⟨by norm_num, by norm_num⟩) (by norm_num)
  have d2 : binary64 ((2001599834386887 / 4503599627370496 : ℝ) + (2001599834386887 / 4503599627370496 : ℝ)) = (2001599834386887 / 2251799813685248 : ℝ) := bin64_eq (-1) 8006399337547548 (by norm_num) (by norm_num) (.inl ⟨by norm_num, by norm_num⟩) (by norm_num)
  have s0 : binary64 ((2001599834386887 / 2251799813685248 : ℝ) + (2001599834386887 / 18014398509481984 : ℝ)) = (1 : ℝ) := bin64_eq (-1) 9007199254740992 (by norm_num) (by norm_num) (.inr ⟨by decide, by norm_num, by norm_num⟩) (by norm_num)
  rw [hw, npSum64, List.length_replicate, npSumTree, if_neg (by norm_num), dif_pos (by norm_num)]
  simp only [Nat.reduceDiv, Nat.reduceMod, Nat.reduceSub, Nat.reduceMul, strideTree, seqTree, AddTree.eval, List.replicate, List.getD_cons_succ, List.getD_cons_zero, Nat.reduceAdd, zero_add, add_zero, d0, d1, d2, s0]

lemma npSum64_default_10 : npSum64 (List.replicate 10 (binary64 (1 / ((10 : ℕ) : ℝ)))) = (1 : ℝ) := by
  have hw : binary64 (1 / ((10 : ℕ) : ℝ)) = (3602879701896397 / 36028797018963968 : ℝ) := bin64_eq (-4) 7205759403792794 (by norm_num) (by norm_num) (.inl ⟨by norm_num, by norm_num⟩) (by norm_num)
  have d0 : binary64 ((3602879701896397 / 36028797018963968 : ℝ) + (3602879701896397 / 36028797018963968 : ℝ)) = (3602879701896397 / 18014398509481984 : ℝ) := bin64_eq (-3) 7205759403792794 (by norm_num) (by norm_num) (.inl ⟨by norm_num, by norm_num⟩) (by norm_num)
  have d1 : binary64 ((3602879701896397 / 18014398509481984 : ℝ) + (3602879701896397 / 18014398509481984 : ℝ)) = (3602879701896397 / 9007199254740992 : ℝ) := bin64_eq (-2) 7205759403792794 (by norm_num) (by norm_num) (.inl ⟨by norm_num, by norm_num⟩) (by norm_num)
  have d2 : binary64 ((3602879701896397 / 9007199254740992 : ℝ) + (3602879701896397 / 9007199254740992 : ℝ)) = (3602879701896397 / 4503599627370496 : ℝ) := bin64_eq (-1) 7205759403792794 (by norm_num) (by norm_num) (.inl ⟨by norm_num, by norm_num⟩) (by norm_num)
  have s0 : binary64 ((3602879701896397 / 4503599627370496 : ℝ) + (3602879701896397 / 36028797018963968 : ℝ)) = (8106479329266893 / 9007199254740992 : ℝ) := bin64_eq (-1) 8106479329266893 (by norm_num) (by norm_num) (.inl ⟨by norm_num, by norm_num⟩) (by norm_num)
  have s1 : binary64 ((8106479329266893 / 9007199254740992 : ℝ) + (3602879701896397 / 36028797018963968 : ℝ)) = (1 : ℝ) := bin64_eq (0) 4503599627370496 (by norm_num) (by norm_num) (.inl ⟨by norm_num, by norm_num⟩) (by norm_num)
  rw [hw, npSum64, List.length_replicate, npSumTree, if_neg (by norm_num), dif_pos (by norm_num)]
  simp only [Nat.reduceDiv, Nat.reduceMod, Nat.reduceSub, Nat.reduceMul, strideTree, seqTree, AddTree.eval, List.replicate, List.getD_cons_succ, List.getD_cons_zero, Nat.reduceAdd, zero_add, add_zero, d0, d1, d2, s0, s1]

lemma npSum64_default_11 : npSum64 (List.replicate 11 (binary64 (1 / ((11 : ℕ) : ℝ)))) = (1 : ℝ) := by
  have hw : binary64 (1 / ((11 : ℕ) : ℝ)) = (3275345183542179 / 36028797018963968 : ℝ) := bin64_eq (-4) 6550690367084358 (by norm_num) (by norm_num) (.inl ⟨by norm_num, by norm_num⟩) (by norm_num)
  have d0 : binary64 ((3275345183542179 / 36028797018963968 : ℝ) + (3275345183542179 / 36028797018963968 : ℝ)) = (3275345183542179 / 18014398509481984 : ℝ) := bin64_eq (-3) 6550690367084358 (by norm_num) (by norm_num) (.inl ⟨by norm_num, by norm_num⟩) (by norm_num)
  have d1 : binary64 ((3275345183542179 / 18014398509481984 : ℝ) + (3275345183542179 / 18014398509481984 : ℝ)) = (3275345183542179 / 9007199254740992 : ℝ) := bin64_eq (-2) 6550690367084358 (by norm_num) (by norm_num) (.inl ⟨by norm_num, by norm_num⟩) (by norm_num)
  have d2 : binary64 ((3275345183542179 / 9007199254740992 : ℝ) + (3275345183542179 / 9007199254740992 : ℝ)) = (3275345183542179 / 4503599627370496 : ℝ) := bin64_eq (-1) 6550690367084358 (by norm_num) (by norm_num) (.inl ⟨by norm_num, by norm_num⟩) (by norm_num)
  have s0 : binary64 ((3275345183542179 / 4503599627370496 : ℝ) + (3275345183542179 / 36028797018963968 : ℝ)) = (7369526662969903 / 9007199254740992 : ℝ) := bin64_eq (-1) 7369526662969903 (by norm_num) (by norm_num) (.inl ⟨by norm_num, by norm_num⟩) (by norm_num)
  have s1 : binary64 ((7369526662969903 / 9007199254740992 : ℝ) + (3275345183542179 / 36028797018963968 : ℝ)) = (1023545369856931 / 1125899906842624 : ℝ) := bin64_eq (-1) 8188362958855448 (by norm_num) (by norm_num) (.inl ⟨by norm_num, by norm_num⟩) (by norm_num)
  have s2 : binary64 ((1023545369856931 / 1125899906842624 : ℝ) + (3275345183542179 / 36028797018963968 : ℝ)) = (1 : ℝ) := bin64_eq (0) 4503599627370496 (by norm_num) (by norm_num) (.inl ⟨by norm_num, by norm_num⟩) (by norm_num)
  rw [hw, npSum64, List.length_replicate, npSumTree, if_neg (by norm_num), dif_pos (by norm_num)]
  simp only [Nat.reduceDiv, Nat.reduceMod, Nat.reduceSub, Nat.reduceMul, strideTree, seqTree, AddTree.eval, List.replicate, List.getD_cons_succ, List.getD_cons_zero, Nat.reduceAdd, zero_add, add_zero, d0, d1, d2, s0, s1, s2]

lemma npSum64_default_12 : npSum64 (List.replicate 12 (binary64 (1 / ((12 : ℕ) : ℝ)))) = (1 : ℝ) := by
  have hw : binary64 (1 / ((12 : ℕ) : ℝ)) = (6004799503160661 / 72057594037927936 : ℝ) := bin64_eq (-4) 6004799503160661 (by norm_num) (by norm_num) (.inl ⟨by norm_num, by norm_num⟩) (by norm_num)
  have d0 : binary64 ((6004799503160661 / 72057594037927936 : ℝ) + (6004799503160661 / 72057594037927936 : ℝ)) = (6004799503160661 / 36028797018963968 : ℝ) := bin64_eq (-3) 6004799503160661 (by norm_num) (by norm_num) (.inl ⟨by norm_num, by norm_num⟩) (by norm_num)
  have d1 : binary64 ((6004799503160661 / 36028797018963968 : ℝ) + (6004799503160661 / 36028797018963968 : ℝ)) = (6004799503160661 / 18014398509481984 : ℝ) := bin64_eq (-2) 6004799503160661 (by norm_num) (by norm_num) (.inl ⟨by norm_num, by norm_num⟩) (by norm_num)
  have d2 : binary64 ((6004799503160661 / 18014398509481984 : ℝ) + (6004799503160661 / 18014398509481984 : ℝ)) = (6004799503160661 / 9007199254740992 : ℝ) := bin64_eq (-1) 6004799503160661 (by norm_num) (by norm_num) (.inl ⟨by norm_num, by norm_num⟩) (by norm_num)
  have s0 : binary64 ((6004799503160661 / 9007199254740992 : ℝ) + (6004799503160661 / 72057594037927936 : ℝ)) = (3 / 4 : ℝ) := bin64_eq (-1) 6755399441055744 (by norm_num) (by norm_num) (.inl ⟨by norm_num, by norm_num⟩) (by norm_num)
  have s1 : binary64 ((3 / 4 : ℝ) + (6004799503160661 / 72057594037927936 : ℝ)) = (7505999378950827 / 9007199254740992 : ℝ) := bin64_eq (-1) 7505999378950827 (by norm_num) (by norm_num) (.inl ⟨by norm_num, by norm_num⟩) (by norm_num)
  have s2 : binary64 ((7505999378950827 / 9007199254740992 : ℝ) + (6004799503160661 / 72057594037927936 : ℝ)) = (4128299658422955 / 4503599627370496 : ℝ) := bin64_eq (-1) 8256599316845910 (by norm_num) (by norm_num) (.inl ⟨by norm_num, by norm_num⟩) (by norm_num)
  have s3 : binary64 ((4128299658422955 / 4503599627370496 : ℝ) + (6004799503160661 / 72057594037927936 : ℝ)) = (1 : ℝ) := bin64_eq (0) 4503599627370496 (by norm_num) (by norm_num) (.inl ⟨by norm_num, by norm_num⟩) (by norm_num)
  rw [hw, npSum64, List.length_replicate, npSumTree, if_neg (by norm_num), dif_pos (by norm_num)]
  simp only [Nat.reduceDiv, Nat.reduceMod, Nat.reduceSub, Nat.reduceMul, strideTree, seqTree, AddTree.eval, List.replicate, List.getD_cons_succ, List.getD_cons_zero, Nat.reduceAdd, zero_add, add_zero, d0, d1, d2, s0, s1, s2, s3]

lemma npSum64_default_13 : npSum64 (List.replicate 13 (binary64 (1 / ((13 : ℕ) : ℝ)))) = (4503599627370495 / 4503599627370496 : ℝ) := by
  have hw : binary64 (1 / ((13 : ℕ) : ℝ)) = (1385722962267845 / 18014398509481984 : ℝ) := bin64_eq (-4) 5542891849071380 (by norm_num) (by norm_num) (.inl ⟨by norm_num, by norm_num⟩) (by norm_num)
  have d0 : binary64 ((1385722962267845 / 18014398509481984 : ℝ) + (1385722962267845 / 18014398509481984 : ℝ)) = (1385722962267845 / 9007199254740992 : ℝ) := bin64_eq (-3) 5542891849071380 (by norm_num) (by norm_num) (.inl ⟨by norm_num, by norm_num⟩) (by norm_num)
  have d1 : binary64 ((1385722962267845 / 9007199254740992 : ℝ) + (1385722962267845 / 9007199254740992 : ℝ)) = (1385722962267845 / 4503599627370496 : ℝ) := bin64_eq (-2) 5542891849071380 (by norm_num) (by norm_num) (.inl ⟨by norm_num, by norm_num⟩) (by norm_num)
  have d2 : binary64 ((1385722962267845 / 4503599627370496 : ℝ) + (1385722962267845 / 4503599627370496 : ℝ)) = (1385722962267845 / 2251799813685248 : ℝ) := bin64_eq (-1) 5542891849071380 (by norm_num) (by norm_num) (.inl ⟨by norm_num, by norm_num⟩) (by norm_num)
  have s0 : binary64 ((1385722962267845 / 2251799813685248 : ℝ) + (1385722962267845 / 18014398509481984 : ℝ)) = (3117876665102651 / 4503599627370496 : ℝ) := bin64_eq (-1) 6235753330205302 (by norm_num) (by norm_num) (.inr ⟨by decide, by norm_num, by norm_num⟩) (by norm_num)
  have s1 : binary64 ((3117876665102651 / 4503599627370496 : ℝ) + (1385722962267845 / 18014398509481984 : ℝ)) = (866076851417403 / 1125899906842624 : ℝ) := bin64_eq (-1) 6928614811339224 (by norm_num) (by norm_num) (.inr ⟨by decide, by norm_num, by norm_num⟩) (by norm_num)
  have s2 : binary64 ((866076851417403 / 1125899906842624 : ℝ) + (1385722962267845 / 18014398509481984 : ℝ)) = (3810738146236573 / 4503599627370496 : ℝ) := bin64_eq (-1) 7621476292473146 (by norm_num) (by norm_num) (.inr ⟨by decide, by norm_num, by norm_num⟩) (by norm_num)
  have s3 : binary64 ((3810738146236573 / 4503599627370496 : ℝ) + (1385722962267845 / 18014398509481984 : ℝ)) = (2078584443401767 / 2251799813685248 : ℝ) := bin64_eq (-1) 8314337773607068 (by norm_num) (by norm_num) (.inr ⟨by decide, by norm_num, by norm_num⟩) (by norm_num)
  have s4 : binary64 ((2078584443401767 / 2251799813685248 : ℝ) + (1385722962267845 / 18014398509481984 : ℝ)) = (4503599627370495 / 4503599627370496 : ℝ) := bin64_eq (-1) 9007199254740990 (by norm_num) (by norm_num) (.inr ⟨by decide, by norm_num, by norm_num⟩) (by norm_num)
  rw [hw, npSum64, List.length_replicate, npSumTree, if_neg (by norm_num), dif_pos (by norm_num)]
  simp only [Nat.reduceDiv, Nat.reduceMod, Nat.reduceSub, Nat.reduceMul, strideTree, seqTree, AddTree.eval, List.replicate, List.getD_cons_succ, List.getD_cons_zero, Nat.reduceAdd, zero_add, add_zero, d0, d1, d2, s0, s1, s2, s3, s4]

lemma npSum64_default_14 : npSum64 (List.replicate 14 (binary64 (1 / ((14 : ℕ) : ℝ)))) = (4503599627370495 / 4503599627370496 : ℝ) := by
  have hw : binary64 (1 / ((14 : ℕ) : ℝ)) = (2573485501354569 / 36028797018963968 : ℝ) := bin64_eq (-4) 5146971002709138 (by norm_num) (by norm_num) (.inl ⟨by norm_num, by norm_num⟩) (by norm_num)
  have d0 : binary64 ((2573485501354569 / 36028797018963968 : ℝ) + (2573485501354569 / 36028797018963968 : ℝ)) = (2573485501354569 / 18014398509481984 : ℝ) := bin64_eq (-3) 5146971002709138 (by norm_num) (by norm_num) (.inl ⟨by norm_num, by norm_num⟩) (by norm_num)
  have d1 : binary64 ((2573485501354569 / 18014398509481984 : ℝ) + (2573485501354569 / 18014398509481984 : ℝ)) = (2573485501354569 / 9007199254740992 : ℝ) := bin64_eq (-2) 5146971002709138 (by norm_num) (by norm_num) (.inl ⟨by norm_num, by norm_num⟩) (by norm_num)
  have d2 : binary64 ((2573485501354569 / 9007199254740992 : ℝ) + (2573485501354569 / 9007199254740992 : ℝ)) = (2573485501354569 / 4503599627370496 : ℝ) := bin64_eq (-1) 5146971002709138 (by norm_num) (by norm_num) (.inl ⟨by norm_num, by norm_num⟩) (by norm_num)
  have s0 : binary64 ((2573485501354569 / 4503599627370496 : ℝ) + (2573485501354569 / 36028797018963968 : ℝ)) = (1447585594511945 / 2251799813685248 : ℝ) := bin64_eq (-1) 5790342378047780 (by norm_num) (by norm_num) (.inl ⟨by norm_num, by norm_num⟩) (by norm_num)
  have s1 : binary64 ((1447585594511945 / 2251799813685248 : ℝ) + (2573485501354569 / 36028797018963968 : ℝ)) = (3216856876693211 / 4503599627370496 : ℝ) := bin64_eq (-1) 6433713753386422 (by norm_num) (by norm_num) (.inl ⟨by norm_num, by norm_num⟩) (by norm_num)
  have s2 : binary64 ((3216856876693211 / 4503599627370496 : ℝ) + (2573485501354569 / 36028797018963968 : ℝ)) = (884635641090633 / 1125899906842624 : ℝ) := bin64_eq (-1) 7077085128725064 (by norm_num) (by norm_num) (.inl ⟨by norm_num, by norm_num⟩) (by norm_num)
  have s3 : binary64 ((884635641090633 / 1125899906842624 : ℝ) + (2573485501354569 / 36028797018963968 : ℝ)) = (3860228252031853 / 4503599627370496 : ℝ) := bin64_eq (-1) 7720456504063706 (by norm_num) (by norm_num) (.inl ⟨by norm_num, by norm_num⟩) (by norm_num)
  have s4 : binary64 ((3860228252031853 / 4503599627370496 : ℝ) + (2573485501354569 / 36028797018963968 : ℝ)) = (2090956969850587 / 2251799813685248 : ℝ) := bin64_eq (-1) 8363827879402348 (by norm_num) (by norm_num) (.inl ⟨by norm_num, by norm_num⟩) (by norm_num)
  have s5 : binary64 ((2090956969850587 / 2251799813685248 : ℝ) + (2573485501354569 / 36028797018963968 : ℝ)) = (4503599627370495 / 4503599627370496 : ℝ) := bin64_eq (-1) 9007199254740990 (by norm_num) (by norm_num) (.inl ⟨by norm_num, by norm_num⟩) (by norm_num)
  rw [hw, npSum64, List.length_replicate, npSumTree, if_neg (by norm_num), dif_pos (by norm_num)]
  simp only [Nat.reduceDiv, Nat.reduceMod, Nat.reduceSub, Nat.reduceMul, strideTree, seqTree, AddTree.eval, List.replicate, List.getD_cons_succ, List.getD_cons_zero, Nat.reduceAdd, zero_add, add_zero, d0, d1, d2, s0, s1, s2, s3, s4, s5]

lemma npSum64_default_15 : npSum64 (List.replicate 15 (binary64 (1 / ((15 : ℕ) : ℝ)))) = (9007199254740991 / 9007199254740992 : ℝ) := by
  have hw : binary64 (1 / ((15 : ℕ) : ℝ)) = (4803839602528529 / 72057594037927936 : ℝ) := bin64_eq (-4) 4803839602528529 (by norm_num) (by norm_num) (.inl ⟨by norm_num, by norm_num⟩) (by norm_num)
  have d0 : binary64 ((4803839602528529 / 72057594037927936 : ℝ) + (4803839602528529 / 72057594037927936 : ℝ)) = (4803839602528529 / 36028797018963968 : ℝ) := bin64_eq (-3) 4803839602528529 (by norm_num) (by norm_num) (.inl ⟨by norm_num, by norm_num⟩) (by norm_num)
  have d1 : binary64 ((4803839602528529 / 36028797018963968 : ℝ) + (4803839602528529 / 36028797018963968 : ℝ)) = (4803839602528529 / 18014398509481984 : ℝ) := bin64_eq (-2) 4803839602528529 (by norm_num) (by norm_num) (.inl ⟨by norm_num, by norm_num⟩) (by norm_num)
  have d2 : binary64 ((4803839602528529 / 18014398509481984 : ℝ) + (4803839602528529 / 18014398509481984 : ℝ)) = (4803839602528529 / 9007199254740992 : ℝ) := bin64_eq (-1) 4803839602528529 (by norm_num) (by norm_num) (.inl ⟨by norm_num, by norm_num⟩) (by norm_num)
  have s0 : binary64 ((4803839602528529 / 9007199254740992 : ℝ) + (4803839602528529 / 72057594037927936 : ℝ)) = (5404319552844595 / 9007199254740992 : ℝ) := bin64_eq (-1) 5404319552844595 (by norm_num) (by norm_num) (.inl ⟨by norm_num, by norm_num⟩) (by norm_num)
  have s1 : binary64 ((5404319552844595 / 9007199254740992 : ℝ) + (4803839602528529 / 72057594037927936 : ℝ)) = (6004799503160661 / 9007199254740992 : ℝ) := bin64_eq (-1) 6004799503160661 (by norm_num) (by norm_num) (.inl ⟨by norm_num, by norm_num⟩) (by norm_num)
  have s2 : binary64 ((6004799503160661 / 9007199254740992 : ℝ) + (4803839602528529 / 72057594037927936 : ℝ)) = (6605279453476727 / 9007199254740992 : ℝ) := bin64_eq (-1) 6605279453476727 (by norm_num) (by norm_num) (.inl ⟨by norm_num, by norm_num⟩) (by norm_num)
  have s3 : binary64 ((6605279453476727 / 9007199254740992 : ℝ) + (4803839602528529 / 72057594037927936 : ℝ)) = (7205759403792793 / 9007199254740992 : ℝ) := bin64_eq (-1) 7205759403792793 (by norm_num) (by norm_num) (.inl ⟨by norm_num, by norm_num⟩) (by norm_num)
  have s4 : binary64 ((7205759403792793 / 9007199254740992 : ℝ) + (4803839602528529 / 72057594037927936 : ℝ)) = (7806239354108859 / 9007199254740992 : ℝ) := bin64_eq (-1) 7806239354108859 (by norm_num) (by norm_num) (.inl ⟨by norm_num, by norm_num⟩) (by norm_num)
  have s5 : binary64 ((7806239354108859 / 9007199254740992 : ℝ) + (4803839602528529 / 72057594037927936 : ℝ)) = (8406719304424925 / 9007199254740992 : ℝ) := bin64_eq (-1) 8406719304424925 (by norm_num) (by norm_num) (.inl ⟨by norm_num, by norm_num⟩) (by norm_num)
  have s6 : binary64 ((8406719304424925 / 9007199254740992 : ℝ) + (4803839602528529 / 72057594037927936 : ℝ)) = (9007199254740991 / 9007199254740992 : ℝ) := bin64_eq (-1) 9007199254740991 (by norm_num) (by norm_num) (.inl ⟨by norm_num, by norm_num⟩) (by norm_num)
  rw [hw, npSum64, List.length_replicate, npSumTree, if_neg (by norm_num), dif_pos (by norm_num)]
  simp only [Nat.reduceDiv, Nat.reduceMod, Nat.reduceSub, Nat.reduceMul, strideTree, seqTree, AddTree.eval, List.replicate, List.getD_cons_succ, List.getD_cons_zero, Nat.reduceAdd, zero_add, add_zero, d0, d1, d2, s0, s1, s2, s3, s4, s5, s6]

/-- C53 fails in double precision beyond seven functions, too: of eight to fifteen functions without weights, thirteen, fourteen and fifteen are rejected with `ValueError`. -/
theorem C53_default_pairwise_refuted : (∀ m, 8 ≤ m → m ≤ 12 → gpgWeightsNp m none = .ok (List.replicate m (binary64 (1 / m)))) ∧
    ∀ m, 13 ≤ m → m ≤ 15 → gpgWeightsNp m none = .error .valueError := by
  constructor
  · intro m h1 h2
    interval_cases m <;> simp only [gpgWeightsNp, List.length_replicate, ne_eq, not_true, false_or]
    · rw [if_neg (not_not.2 npSum64_default_8)]
    · rw [if_neg (not_not.2 npSum64_default_9)]
    · rw [if_neg (not_not.2 npSum64_default_10)]
    · rw [if_neg (not_not.2 npSum64_default_11)]
    · rw [if_neg (not_not.2 npSum64_default_12)]
  · intro m h1 h2
    interval_cases m <;> simp only [gpgWeightsNp, List.length_replicate, ne_eq, not_true, false_or]
    · rw [if_pos]; rw [npSum64_default_13]; norm_num
    · rw [if_pos]; rw [npSum64_default_14]; norm_num
    · rw [if_pos]; rw [npSum64_default_15]; norm_num

/-- C53: weights that are accepted are as many as the functions, and their rounded sum is `1`. -/
theorem C53_weightsNp_checked (m : ℕ) (ws : List ℝ) : (∃ r, gpgWeightsNp m (some ws) = .ok r) ↔ ws.length = m ∧ npSum64 ws = 1 := by
  simp only [gpgWeightsNp]
  constructor
  · rintro ⟨r, h⟩
    split_ifs at h with hc
    push Not at hc
    exact hc
  · rintro ⟨h1, h2⟩
    exact ⟨ws, by rw [if_neg]; push Not; exact ⟨h1, h2⟩⟩

/-- Ten weights that are multiples of `1/16`. -/
example : ([4, 2, 1, 1, 1, 1, 1, 1, 2, 2] : List ℕ).sum = 2 ^ 4 := by decide

end Verif
