import Verif.Model.Samples

/-! # Facts about `samples.py` -/

namespace S2wav

theorem j_max_eq {L : ℤ} {lam : ℝ} (hL : 1 ≤ L) (hlam : 1 < lam) :
    j_max L lam = .ok ⌈Real.log L / Real.log lam⌉ := by
  unfold j_max
  have h1 : ¬ (L < 0 ∨ lam < 0) := by rintro (h | h) <;> [omega; linarith]
  rw [if_neg h1, if_neg (by linarith), if_neg (by omega), if_neg (by linarith)]

theorem ceil_log_le_iff {L J : ℤ} {lam : ℝ} (hL : 1 ≤ L) (hlam : 1 < lam) :
    ⌈Real.log L / Real.log lam⌉ ≤ J ↔ (L : ℝ) ≤ lam ^ J := by
  have hl : 0 < Real.log lam := Real.log_pos hlam
  have h0 : (0 : ℝ) < L := by exact_mod_cast (by omega : 0 < L)
  have hp : (0 : ℝ) < lam ^ J := zpow_pos (by linarith) _
  rw [Int.ceil_le, div_le_iff₀ hl, ← Real.log_zpow, Real.log_le_log_iff h0 hp]

theorem ceil_log_nonneg {L : ℤ} {lam : ℝ} (hL : 1 ≤ L) (hlam : 1 < lam) :
    0 ≤ ⌈Real.log L / Real.log lam⌉ := by
  have hl : 0 < Real.log lam := Real.log_pos hlam
  have h0 : (1 : ℝ) ≤ L := by exact_mod_cast hL
  exact Int.ceil_nonneg (div_nonneg (Real.log_nonneg h0) hl.le)

theorem j_max_spec {L J : ℤ} {lam : ℝ} (hL : 1 ≤ L) (hlam : 1 < lam) (hJ : j_max L lam = .ok J) :
    0 ≤ J ∧ (L : ℝ) ≤ lam ^ J ∧ ∀ J' : ℤ, (L : ℝ) ≤ lam ^ J' → J ≤ J' := by
  rw [j_max_eq hL hlam] at hJ
  cases hJ
  refine ⟨ceil_log_nonneg hL hlam, (ceil_log_le_iff hL hlam).1 le_rfl, fun J' h => ?_⟩
  exact (ceil_log_le_iff hL hlam).2 h

/-- `jm` computes some top scale `J` that is large enough: `L - 1 < lam^J`.  This holds for the exact `j_max`, for every
over-estimate, and also for an under-estimate caused by rounding when `L` is just above a power of `lam`. -/
structure TopScale (jm : JMax) (L : ℤ) (lam : ℝ) (J : ℤ) : Prop where
  hL : 1 ≤ L
  hlam : 1 < lam
  hJ : jm L lam = .ok J
  hJ0 : 0 ≤ J
  hLJ : (L : ℝ) < lam ^ J + 1

theorem TopScale.of_j_max {L J : ℤ} {lam : ℝ} (hL : 1 ≤ L) (hlam : 1 < lam) (hJ : j_max L lam = .ok J) :
    TopScale j_max L lam J :=
  ⟨hL, hlam, hJ, (j_max_spec hL hlam hJ).1, by have := (j_max_spec hL hlam hJ).2.1; linarith⟩

theorem TopScale.edge {jm : JMax} {L J l : ℤ} {lam : ℝ} (hT : TopScale jm L lam J) (hl : l < L) : (l : ℝ) < lam ^ J := by
  have h1 := hT.hLJ
  have h2 : (l : ℝ) + 1 ≤ L := by exact_mod_cast hl
  linarith

section
variable {L j N : ℤ} {lam : ℝ}

theorem zpow_pos' (hlam : 1 < lam) (j : ℤ) : 0 < lam ^ j := zpow_pos (by linarith) _

theorem one_le_ceil (hlam : 1 < lam) (j : ℤ) : 1 ≤ ⌈lam ^ j⌉ := Int.one_le_ceil_iff.2 (zpow_pos' hlam j)

theorem zpow_mono' (hlam : 1 < lam) {i j : ℤ} (h : i ≤ j) : lam ^ i ≤ lam ^ j := zpow_le_zpow_right₀ hlam.le h

theorem ceil_mono (hlam : 1 < lam) {i j : ℤ} (h : i ≤ j) : ⌈lam ^ i⌉ ≤ ⌈lam ^ j⌉ :=
  Int.ceil_mono (zpow_mono' hlam h)

theorem wav_j_bandlimit_bounds (hL : 1 ≤ L) (hlam : 1 < lam) (j : ℤ) (mr : Bool) :
    1 ≤ wav_j_bandlimit L j lam mr ∧ wav_j_bandlimit L j lam mr ≤ L := by
  unfold wav_j_bandlimit
  cases mr
  · simp [hL]
  · simp only [if_true]
    have := one_le_ceil hlam ((if j = 0 then j + 1 else j) + 1)
    omega

theorem LN_j_Lj (L j N : ℤ) (lam : ℝ) (mr : Bool) : (LN_j L j N lam mr).1 = wav_j_bandlimit L j lam mr := by
  unfold LN_j wav_j_bandlimit
  by_cases h : j = 0 <;> simp [h]

theorem LN_j_Lj_bounds (hL : 1 ≤ L) (hlam : 1 < lam) (j N : ℤ) (mr : Bool) :
    1 ≤ (LN_j L j N lam mr).1 ∧ (LN_j L j N lam mr).1 ≤ L := by
  rw [LN_j_Lj]; exact wav_j_bandlimit_bounds hL hlam j mr

theorem LN_j_Nj_bounds (hL : 1 ≤ L) (hlam : 1 < lam) (hN : 1 ≤ N) (j : ℤ) (mr : Bool) :
    1 ≤ (LN_j L j N lam mr).2.1 ∧ (LN_j L j N lam mr).2.1 ≤ N ∧
      min N (LN_j L j N lam mr).1 ≤ (LN_j L j N lam mr).2.1 ∧
      (mr = true → (LN_j L j N lam mr).2.1 ≤ (LN_j L j N lam mr).1 + 1) ∧
      ((LN_j L j N lam mr).2.1 - N) % 2 = 0 := by
  have h := (LN_j_Lj_bounds (N := N) hL hlam j mr).1
  cases mr
  · simp only [LN_j] at h ⊢; simp [hN]
  · simp only [LN_j] at h ⊢
    simp only [if_true] at h ⊢
    generalize wav_j_bandlimit L _ lam true = x at *
    refine ⟨?_, ?_, ?_, ?_, ?_⟩ <;> omega

theorem LN_j_L0_nonneg (hlam : 1 < lam) (L j N : ℤ) (mr : Bool) : 0 ≤ (LN_j L j N lam mr).2.2 := by
  unfold LN_j L0_j
  cases mr
  · simp
  · simp only [if_true]
    split_ifs <;> first | exact le_rfl | exact le_trans zero_le_one (one_le_ceil hlam _)

theorem scal_bandlimit_bounds (hL : 1 ≤ L) (hlam : 1 < lam) (J_min : ℤ) (mr : Bool) :
    1 ≤ scal_bandlimit L J_min lam mr ∧ scal_bandlimit L J_min lam mr ≤ L := by
  unfold scal_bandlimit
  cases mr
  · simp [hL]
  · simp only [if_true]
    have := one_le_ceil hlam J_min
    omega

end

end S2wav
