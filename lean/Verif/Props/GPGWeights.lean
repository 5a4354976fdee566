import Verif.Model.GPGWeights
import Verif.Props.GPG
import Verif.Props.Rounded

/-! # C53: the check of the weights in double precision -/

namespace Verif

lemma roundEven_eq {y : ℝ} {k : ℤ} (h : ((k : ℝ) - 1 / 2 < y ∧ y < k + 1 / 2) ∨ (Even k ∧ (k : ℝ) - 1 / 2 ≤ y ∧ y ≤ k + 1 / 2)) : roundEven y = k := by
  have h1 : (k : ℝ) - 1 / 2 ≤ y := h.elim (fun h => h.1.le) fun h => h.2.1
  have h2 : y ≤ k + 1 / 2 := h.elim (fun h => h.2.le) fun h => h.2.2
  by_cases hk : (k : ℝ) ≤ y
  · have hf : ⌊y⌋ = k := Int.floor_eq_iff.2 ⟨hk, by linarith⟩
    have hr : Int.fract y = y - k := by rw [Int.fract, hf]
    unfold roundEven
    rw [hr, hf]
    rcases h with h | h
    · rw [if_pos (by linarith)]
    · split_ifs with a b c
      · rfl
      · linarith
      · rfl
      · exact absurd h.1 c
  · push Not at hk
    have hf : ⌊y⌋ = k - 1 := Int.floor_eq_iff.2 ⟨by push_cast; linarith, by push_cast; linarith⟩
    have hr : Int.fract y = y - k + 1 := by rw [Int.fract, hf]; push_cast; ring
    unfold roundEven
    rw [hr, hf]
    have a : ¬ y - k + 1 < 1 / 2 := by linarith
    rw [if_neg a]
    rcases h with h | h
    · rw [if_pos (by linarith)]; ring
    · have c : ¬ Even (k - 1) := by
        intro hc
        have := hc.sub h.1
        rw [show k - 1 - k = -1 by ring] at this
        exact absurd this (by decide)
      rw [if_neg c]
      split_ifs <;> ring

/-- The value of the rounding from the binade of the number and the nearest multiple of its unit. -/
lemma bin64_eq {x r : ℝ} (e k : ℤ) (h1 : (2 : ℝ) ^ e ≤ x) (h2 : x < (2 : ℝ) ^ (e + 1))
    (h : ((k : ℝ) - 1 / 2 < x * 2 ^ (52 - e) ∧ x * 2 ^ (52 - e) < k + 1 / 2) ∨ (Even k ∧ (k : ℝ) - 1 / 2 ≤ x * 2 ^ (52 - e) ∧ x * 2 ^ (52 - e) ≤ k + 1 / 2))
    (hr : (2 : ℝ) ^ (e - 52) * k = r) : binary64 x = r := by
  have hx : 0 < x := lt_of_lt_of_le (by positivity) h1
  have hl : Int.log 2 x = e := by
    apply le_antisymm
    · have : x < (2 : ℕ) ^ (e + 1) := by exact_mod_cast h2
      have := (Int.lt_zpow_iff_log_lt (b := 2) (by norm_num) hx).1 this
      omega
    · exact (Int.zpow_le_iff_le_log (b := 2) (by norm_num) hx).1 (by exact_mod_cast h1)
  rw [binary64, fmtBits_pos 52 hx, fmtPos, hl]
  push_cast
  rw [roundEven_eq h, hr]

lemma sum64_default_1 : sum64 (List.replicate 1 (binary64 (1 / (1 : ℕ)))) = (1 : ℝ) := by
  have ha : binary64 (1 / ((1 : ℕ) : ℝ)) = (1 : ℝ) := bin64_eq (0) 4503599627370496 (by norm_num) (by norm_num) (.inr ⟨by decide, by norm_num, by norm_num⟩) (by norm_num)
  have h0 : binary64 ((0 : ℝ) + (1 : ℝ)) = (1 : ℝ) := bin64_eq (0) 4503599627370496 (by norm_num) (by norm_num) (.inr ⟨by decide, by norm_num, by norm_num⟩) (by norm_num)
  simp only [List.replicate, sum64, List.foldl, ha, h0]

lemma sum64_default_2 : sum64 (List.replicate 2 (binary64 (1 / (2 : ℕ)))) = (1 : ℝ) := by
  have ha : binary64 (1 / ((2 : ℕ) : ℝ)) = (1 / 2 : ℝ) := bin64_eq (-1) 4503599627370496 (by norm_num) (by norm_num) (.inr ⟨by decide, by norm_num, by norm_num⟩) (by norm_num)
  have h0 : binary64 ((0 : ℝ) + (1 / 2 : ℝ)) = (1 / 2 : ℝ) := bin64_eq (-1) 4503599627370496 (by norm_num) (by norm_num) (.inr ⟨by decide, by norm_num, by norm_num⟩) (by norm_num)
  have h1 : binary64 ((1 / 2 : ℝ) + (1 / 2 : ℝ)) = (1 : ℝ) := bin64_eq (0) 4503599627370496 (by norm_num) (by norm_num) (.inr ⟨by decide, by norm_num, by norm_num⟩) (by norm_num)
  simp only [List.replicate, sum64, List.foldl, ha, h0, h1]

lemma sum64_default_3 : sum64 (List.replicate 3 (binary64 (1 / (3 : ℕ)))) = (1 : ℝ) := by
  have ha : binary64 (1 / ((3 : ℕ) : ℝ)) = (6004799503160661 / 18014398509481984 : ℝ) := bin64_eq (-2) 6004799503160661 (by norm_num) (by norm_num) (.inl ⟨by norm_num, by norm_num⟩) (by norm_num)
  have h0 : binary64 ((0 : ℝ) + (6004799503160661 / 18014398509481984 : ℝ)) = (6004799503160661 / 18014398509481984 : ℝ) := bin64_eq (-2) 6004799503160661 (by norm_num) (by norm_num) (.inl ⟨by norm_num, by norm_num⟩) (by norm_num)
  have h1 : binary64 ((6004799503160661 / 18014398509481984 : ℝ) + (6004799503160661 / 18014398509481984 : ℝ)) = (6004799503160661 / 9007199254740992 : ℝ) := bin64_eq (-1) 6004799503160661 (by norm_num) (by norm_num) (.inl ⟨by norm_num, by norm_num⟩) (by norm_num)
  have h2 : binary64 ((6004799503160661 / 9007199254740992 : ℝ) + (6004799503160661 / 18014398509481984 : ℝ)) = (1 : ℝ) := bin64_eq (-1) 9007199254740992 (by norm_num) (by norm_num) (.inr ⟨by decide, by norm_num, by norm_num⟩) (by norm_num)
  simp only [List.replicate, sum64, List.foldl, ha, h0, h1, h2]

lemma sum64_default_4 : sum64 (List.replicate 4 (binary64 (1 / (4 : ℕ)))) = (1 : ℝ) := by
  have ha : binary64 (1 / ((4 : ℕ) : ℝ)) = (1 / 4 : ℝ) := bin64_eq (-2) 4503599627370496 (by norm_num) (by norm_num) (.inr ⟨by decide, by norm_num, by norm_num⟩) (by norm_num)
  have h0 : binary64 ((0 : ℝ) + (1 / 4 : ℝ)) = (1 / 4 : ℝ) := bin64_eq (-2) 4503599627370496 (by norm_num) (by norm_num) (.inr ⟨by decide, by norm_num, by norm_num⟩) (by norm_num)
  have h1 : binary64 ((1 / 4 : ℝ) + (1 / 4 : ℝ)) = (1 / 2 : ℝ) := bin64_eq (-1) 4503599627370496 (by norm_num) (by norm_num) (.inr ⟨by decide, by norm_num, by norm_num⟩) (by norm_num)
  have h2 : binary64 ((1 / 2 : ℝ) + (1 / 4 : ℝ)) = (3 / 4 : ℝ) := bin64_eq (-1) 6755399441055744 (by norm_num) (by norm_num) (.inr ⟨by decide, by norm_num, by norm_num⟩) (by norm_num)
  have h3 : binary64 ((3 / 4 : ℝ) + (1 / 4 : ℝ)) = (1 : ℝ) := bin64_eq (0) 4503599627370496 (by norm_num) (by norm_num) (.inr ⟨by decide, by norm_num, by norm_num⟩) (by norm_num)
  simp only [List.replicate, sum64, List.foldl, ha, h0, h1, h2, h3]

lemma sum64_default_5 : sum64 (List.replicate 5 (binary64 (1 / (5 : ℕ)))) = (1 : ℝ) := by
  have ha : binary64 (1 / ((5 : ℕ) : ℝ)) = (3602879701896397 / 18014398509481984 : ℝ) := bin64_eq (-3) 7205759403792794 (by norm_num) (by norm_num) (.inr ⟨by decide, by norm_num, by norm_num⟩) (by norm_num)
  have h0 : binary64 ((0 : ℝ) + (3602879701896397 / 18014398509481984 : ℝ)) = (3602879701896397 / 18014398509481984 : ℝ) := bin64_eq (-3) 7205759403792794 (by norm_num) (by norm_num) (.inr ⟨by decide, by norm_num, by norm_num⟩) (by norm_num)
  have h1 : binary64 ((3602879701896397 / 18014398509481984 : ℝ) + (3602879701896397 / 18014398509481984 : ℝ)) = (3602879701896397 / 9007199254740992 : ℝ) := bin64_eq (-2) 7205759403792794 (by norm_num) (by norm_num) (.inr ⟨by decide, by norm_num, by norm_num⟩) (by norm_num)
  have h2 : binary64 ((3602879701896397 / 9007199254740992 : ℝ) + (3602879701896397 / 18014398509481984 : ℝ)) = (1351079888211149 / 2251799813685248 : ℝ) := bin64_eq (-1) 5404319552844596 (by norm_num) (by norm_num) (.inr ⟨by decide, by norm_num, by norm_num⟩) (by norm_num)
  have h3 : binary64 ((1351079888211149 / 2251799813685248 : ℝ) + (3602879701896397 / 18014398509481984 : ℝ)) = (3602879701896397 / 4503599627370496 : ℝ) := bin64_eq (-1) 7205759403792794 (by norm_num) (by norm_num) (.inr ⟨by decide, by norm_num, by norm_num⟩) (by norm_num)
  have h4 : binary64 ((3602879701896397 / 4503599627370496 : ℝ) + (3602879701896397 / 18014398509481984 : ℝ)) = (1 : ℝ) := bin64_eq (0) 4503599627370496 (by norm_num) (by norm_num) (.inr ⟨by decide, by norm_num, by norm_num⟩) (by norm_num)
  simp only [List.replicate, sum64, List.foldl, ha, h0, h1, h2, h3, h4]

lemma sum64_default_6 : sum64 (List.replicate 6 (binary64 (1 / (6 : ℕ)))) = (9007199254740991 / 9007199254740992 : ℝ) := by
  have ha : binary64 (1 / ((6 : ℕ) : ℝ)) = (6004799503160661 / 36028797018963968 : ℝ) := bin64_eq (-3) 6004799503160661 (by norm_num) (by norm_num) (.inl ⟨by norm_num, by norm_num⟩) (by norm_num)
  have h0 : binary64 ((0 : ℝ) + (6004799503160661 / 36028797018963968 : ℝ)) = (6004799503160661 / 36028797018963968 : ℝ) := bin64_eq (-3) 6004799503160661 (by norm_num) (by norm_num) (.inl ⟨by norm_num, by norm_num⟩) (by norm_num)
  have h1 : binary64 ((6004799503160661 / 36028797018963968 : ℝ) + (6004799503160661 / 36028797018963968 : ℝ)) = (6004799503160661 / 18014398509481984 : ℝ) := bin64_eq (-2) 6004799503160661 (by norm_num) (by norm_num) (.inl ⟨by norm_num, by norm_num⟩) (by norm_num)
  have h2 : binary64 ((6004799503160661 / 18014398509481984 : ℝ) + (6004799503160661 / 36028797018963968 : ℝ)) = (1 / 2 : ℝ) := bin64_eq (-2) 9007199254740992 (by norm_num) (by norm_num) (.inr ⟨by decide, by norm_num, by norm_num⟩) (by norm_num)
  have h3 : binary64 ((1 / 2 : ℝ) + (6004799503160661 / 36028797018963968 : ℝ)) = (6004799503160661 / 9007199254740992 : ℝ) := bin64_eq (-1) 6004799503160661 (by norm_num) (by norm_num) (.inl ⟨by norm_num, by norm_num⟩) (by norm_num)
  have h4 : binary64 ((6004799503160661 / 9007199254740992 : ℝ) + (6004799503160661 / 36028797018963968 : ℝ)) = (3752999689475413 / 4503599627370496 : ℝ) := bin64_eq (-1) 7505999378950826 (by norm_num) (by norm_num) (.inr ⟨by decide, by norm_num, by norm_num⟩) (by norm_num)
  have h5 : binary64 ((3752999689475413 / 4503599627370496 : ℝ) + (6004799503160661 / 36028797018963968 : ℝ)) = (9007199254740991 / 9007199254740992 : ℝ) := bin64_eq (-1) 9007199254740991 (by norm_num) (by norm_num) (.inl ⟨by norm_num, by norm_num⟩) (by norm_num)
  simp only [List.replicate, sum64, List.foldl, ha, h0, h1, h2, h3, h4, h5]

lemma sum64_default_7 : sum64 (List.replicate 7 (binary64 (1 / (7 : ℕ)))) = (4503599627370495 / 4503599627370496 : ℝ) := by
  have ha : binary64 (1 / ((7 : ℕ) : ℝ)) = (2573485501354569 / 18014398509481984 : ℝ) := bin64_eq (-3) 5146971002709138 (by norm_num) (by norm_num) (.inr ⟨by decide, by norm_num, by norm_num⟩) (by norm_num)
  have h0 : binary64 ((0 : ℝ) + (2573485501354569 / 18014398509481984 : ℝ)) = (2573485501354569 / 18014398509481984 : ℝ) := bin64_eq (-3) 5146971002709138 (by norm_num) (by norm_num) (.inr ⟨by decide, by norm_num, by norm_num⟩) (by norm_num)
  have h1 : binary64 ((2573485501354569 / 18014398509481984 : ℝ) + (2573485501354569 / 18014398509481984 : ℝ)) = (2573485501354569 / 9007199254740992 : ℝ) := bin64_eq (-2) 5146971002709138 (by norm_num) (by norm_num) (.inr ⟨by decide, by norm_num, by norm_num⟩) (by norm_num)
  have h2 : binary64 ((2573485501354569 / 9007199254740992 : ℝ) + (2573485501354569 / 18014398509481984 : ℝ)) = (7720456504063707 / 18014398509481984 : ℝ) := bin64_eq (-2) 7720456504063707 (by norm_num) (by norm_num) (.inl ⟨by norm_num, by norm_num⟩) (by norm_num)
  have h3 : binary64 ((7720456504063707 / 18014398509481984 : ℝ) + (2573485501354569 / 18014398509481984 : ℝ)) = (2573485501354569 / 4503599627370496 : ℝ) := bin64_eq (-1) 5146971002709138 (by norm_num) (by norm_num) (.inr ⟨by decide, by norm_num, by norm_num⟩) (by norm_num)
  have h4 : binary64 ((2573485501354569 / 4503599627370496 : ℝ) + (2573485501354569 / 18014398509481984 : ℝ)) = (3216856876693211 / 4503599627370496 : ℝ) := bin64_eq (-1) 6433713753386422 (by norm_num) (by norm_num) (.inr ⟨by decide, by norm_num, by norm_num⟩) (by norm_num)
  have h5 : binary64 ((3216856876693211 / 4503599627370496 : ℝ) + (2573485501354569 / 18014398509481984 : ℝ)) = (3860228252031853 / 4503599627370496 : ℝ) := bin64_eq (-1) 7720456504063706 (by norm_num) (by norm_num) (.inr ⟨by decide, by norm_num, by norm_num⟩) (by norm_num)
  have h6 : binary64 ((3860228252031853 / 4503599627370496 : ℝ) + (2573485501354569 / 18014398509481984 : ℝ)) = (4503599627370495 / 4503599627370496 : ℝ) := bin64_eq (-1) 9007199254740990 (by norm_num) (by norm_num) (.inr ⟨by decide, by norm_num, by norm_num⟩) (by norm_num)
  simp only [List.replicate, sum64, List.foldl, ha, h0, h1, h2, h3, h4, h5, h6]

lemma sum64_down : sum64 [(3152519739159347 / 4503599627370496 : ℝ), (3602879701896397 / 18014398509481984 : ℝ), (3602879701896397 / 36028797018963968 : ℝ)] = (9007199254740991 / 9007199254740992 : ℝ) := by
  have h0 : binary64 ((0 : ℝ) + (3152519739159347 / 4503599627370496 : ℝ)) = (3152519739159347 / 4503599627370496 : ℝ) := bin64_eq (-1) 6305039478318694 (by norm_num) (by norm_num) (.inr ⟨by decide, by norm_num, by norm_num⟩) (by norm_num)
  have h1 : binary64 ((3152519739159347 / 4503599627370496 : ℝ) + (3602879701896397 / 18014398509481984 : ℝ)) = (2026619832316723 / 2251799813685248 : ℝ) := bin64_eq (-1) 8106479329266892 (by norm_num) (by norm_num) (.inr ⟨by decide, by norm_num, by norm_num⟩) (by norm_num)
  have h2 : binary64 ((2026619832316723 / 2251799813685248 : ℝ) + (3602879701896397 / 36028797018963968 : ℝ)) = (9007199254740991 / 9007199254740992 : ℝ) := bin64_eq (-1) 9007199254740991 (by norm_num) (by norm_num) (.inl ⟨by norm_num, by norm_num⟩) (by norm_num)
  simp only [sum64, List.foldl, h0, h1, h2]

lemma sum64_up : sum64 [(3602879701896397 / 36028797018963968 : ℝ), (3602879701896397 / 18014398509481984 : ℝ), (3152519739159347 / 4503599627370496 : ℝ)] = (1 : ℝ) := by
  have h0 : binary64 ((0 : ℝ) + (3602879701896397 / 36028797018963968 : ℝ)) = (3602879701896397 / 36028797018963968 : ℝ) := bin64_eq (-4) 7205759403792794 (by norm_num) (by norm_num) (.inr ⟨by decide, by norm_num, by norm_num⟩) (by norm_num)
  have h1 : binary64 ((3602879701896397 / 36028797018963968 : ℝ) + (3602879701896397 / 18014398509481984 : ℝ)) = (1351079888211149 / 4503599627370496 : ℝ) := bin64_eq (-2) 5404319552844596 (by norm_num) (by norm_num) (.inr ⟨by decide, by norm_num, by norm_num⟩) (by norm_num)
  have h2 : binary64 ((1351079888211149 / 4503599627370496 : ℝ) + (3152519739159347 / 4503599627370496 : ℝ)) = (1 : ℝ) := bin64_eq (0) 4503599627370496 (by norm_num) (by norm_num) (.inr ⟨by decide, by norm_num, by norm_num⟩) (by norm_num)
  simp only [sum64, List.foldl, h0, h1, h2]

/-- C53 fails in double precision: without weights, `GeneralizedProximalGradient` with fewer than eight functions `proxgs` accepts one to five of them and raises `ValueError` for six and seven. -/
theorem C53_default_weights_refuted : (∀ m, 1 ≤ m → m ≤ 5 → gpgWeights64 m none = .ok (List.replicate m (binary64 (1 / m)))) ∧
    ∀ m, m = 0 ∨ m = 6 ∨ m = 7 → gpgWeights64 m none = .error .valueError := by
  constructor
  · intro m h1 h2
    interval_cases m <;> simp only [gpgWeights64, List.length_replicate, ne_eq, not_true, false_or]
    · rw [if_neg (not_not.2 sum64_default_1)]
    · rw [if_neg (not_not.2 sum64_default_2)]
    · rw [if_neg (not_not.2 sum64_default_3)]
    · rw [if_neg (not_not.2 sum64_default_4)]
    · rw [if_neg (not_not.2 sum64_default_5)]
  · rintro m (rfl | rfl | rfl) <;> simp only [gpgWeights64, List.length_replicate, ne_eq, not_true, false_or]
    · rw [if_pos]; simp [sum64]
    · rw [if_pos]; rw [sum64_default_6]; norm_num
    · rw [if_pos]; rw [sum64_default_7]; norm_num

/-- The double precision numbers written `0.1`, `0.2` and `0.7`. -/
noncomputable def tenth64 : ℝ := (3602879701896397 / 36028797018963968 : ℝ)
noncomputable def fifth64 : ℝ := (3602879701896397 / 18014398509481984 : ℝ)
noncomputable def sevenTenths64 : ℝ := (3152519739159347 / 4503599627370496 : ℝ)

/-- C53: the order of the functions matters: weights `0.1, 0.2, 0.7` are accepted, `0.7, 0.2, 0.1` are not. -/
theorem C53_weights_order_refuted : (tenth64 = binary64 (1 / 10) ∧ fifth64 = binary64 (2 / 10) ∧ sevenTenths64 = binary64 (7 / 10)) ∧
    gpgWeights64 3 (some [tenth64, fifth64, sevenTenths64]) = .ok [tenth64, fifth64, sevenTenths64] ∧ gpgWeights64 3 (some [sevenTenths64, fifth64, tenth64]) = .error .valueError := by
  refine ⟨⟨?_, ?_, ?_⟩, ?_, ?_⟩
  · have h : binary64 (1 / 10 : ℝ) = (3602879701896397 / 36028797018963968 : ℝ) := bin64_eq (-4) 7205759403792794 (by norm_num) (by norm_num) (.inr ⟨by decide, by norm_num, by norm_num⟩) (by norm_num)
    rw [tenth64, h]
  · have h : binary64 (2 / 10 : ℝ) = (3602879701896397 / 18014398509481984 : ℝ) := bin64_eq (-3) 7205759403792794 (by norm_num) (by norm_num) (.inr ⟨by decide, by norm_num, by norm_num⟩) (by norm_num)
    rw [fifth64, h]
  · have h : binary64 (7 / 10 : ℝ) = (3152519739159347 / 4503599627370496 : ℝ) := bin64_eq (-1) 6305039478318694 (by norm_num) (by norm_num) (.inr ⟨by decide, by norm_num, by norm_num⟩) (by norm_num)
    rw [sevenTenths64, h]
  · simp only [gpgWeights64, List.length_cons, List.length_nil, ne_eq, not_true, false_or, tenth64, fifth64, sevenTenths64]
    rw [if_neg (not_not.2 sum64_up)]
  · simp only [gpgWeights64, List.length_cons, List.length_nil, ne_eq, not_true, false_or, tenth64, fifth64, sevenTenths64]
    rw [if_pos]; rw [sum64_down]; norm_num

/-- C53: weights that are accepted are as many as the functions, and their rounded sum is `1`. -/
theorem C53_weights64_checked (m : ℕ) (ws r : List ℝ) (h : gpgWeights64 m (some ws) = .ok r) : r = ws ∧ ws.length = m ∧ sum64 ws = 1 := by
  simp only [gpgWeights64] at h
  split_ifs at h with hc
  push Not at hc
  cases h
  exact ⟨rfl, hc.1, hc.2⟩

end Verif
