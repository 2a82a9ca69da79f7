import Verif.Props.RoundedSamples

/-! # C129: dilations too large for the band-limits in double precision

`wav_j_bandlimit` computes `min(ceil(lam ** (j + 1)), L)`: the power is formed before the minimum is taken, so that a `lam` whose square
is not a double leaves no scale for which the call returns, although the result would be `L`. -/

namespace S2wav
open Classical

variable {m : Libm} {lf : ℝ → F64} {L N J J_min j : ℤ} {lam : ℝ}

/-- the C library overflows where the power is beyond the range of doubles -/
def Libm.PowBig (m : Libm) : Prop := ∀ (x : ℝ) (n : ℤ), 0 < x → (2 : ℝ) ^ (1024 : ℤ) ≤ x ^ n → m.pow x n = .inf

/-- and returns a number where the power is well within -/
def Libm.PowSmall (m : Libm) : Prop := ∀ (x : ℝ) (n : ℤ), 0 < x → x ^ n ≤ (2 : ℝ) ^ (1023 : ℤ) → ∃ y, m.pow x n = .fin y

theorem Libm.PowBig.raises (hb : m.PowBig) {n : ℤ} (h0 : 0 < lam) (h : (2 : ℝ) ^ (1024 : ℤ) ≤ lam ^ n) : m.pyPow (.fin lam) n = .error .overflow := by
  simp only [Libm.pyPow, hb lam n h0 h]

/-- **C129** a scale whose upper end is beyond the range of doubles has no band-limit: `OverflowError`, whatever `L` -/
theorem C129_scale (hb : m.PowBig) (h0 : 0 < lam) (hj : j ≠ 0) (h : (2 : ℝ) ^ (1024 : ℤ) ≤ lam ^ (j + 1)) (L N : ℤ) :
    wav_j_bandlimit64 m L j lam true = .error .overflow ∧ LN_j64 m L j N lam true = .error .overflow := by
  have h1 : wav_j_bandlimit64 m L j lam true = .error .overflow := by
    unfold wav_j_bandlimit64
    simp only [if_neg hj, if_true]
    rw [hb.raises h0 h]
    rfl
  refine ⟨h1, ?_⟩
  unfold LN_j64
  simp only [if_neg hj]
  rw [h1]
  rfl

theorem square_big (h : (2 : ℝ) ^ (512 : ℤ) ≤ lam) {n : ℤ} (hn : 2 ≤ n) : (2 : ℝ) ^ (1024 : ℤ) ≤ lam ^ n := by
  have h1 : (1 : ℝ) ≤ lam := le_trans (one_le_zpow₀ (by norm_num) (by norm_num)) h
  have h2 : (2 : ℝ) ^ (1024 : ℤ) = ((2 : ℝ) ^ (512 : ℤ)) ^ (2 : ℤ) := by rw [← zpow_mul]; norm_num
  rw [h2]
  refine le_trans ?_ (zpow_le_zpow_right₀ h1 hn)
  rw [zpow_ofNat, zpow_ofNat]
  exact pow_le_pow_left₀ (by positivity) h 2

/-- **C129** with `lam` from 2^512 on this is so for every scale, scale 0 included, so that no multiresolution transform is possible -/
theorem C129_every_scale (hb : m.PowBig) (h : (2 : ℝ) ^ (512 : ℤ) ≤ lam) (hj : 0 ≤ j) (L N : ℤ) :
    wav_j_bandlimit64 m L j lam true = .error .overflow ∧ LN_j64 m L j N lam true = .error .overflow := by
  have h0 : 0 < lam := lt_of_lt_of_le (by positivity) h
  by_cases hj0 : j = 0
  · have h1 : wav_j_bandlimit64 m L 1 lam true = .error .overflow := (C129_scale hb h0 one_ne_zero (square_big h (by norm_num)) L N).1
    have h2 : LN_j64 m L 1 N lam true = .error .overflow := (C129_scale hb h0 one_ne_zero (square_big h (by norm_num)) L N).2
    subst hj0
    exact ⟨h1, h2⟩
  · exact C129_scale hb h0 hj0 (square_big h (by omega)) L N

/-- **C129** the band-limit of the scaling function is affected only from `J_min = 2` on -/
theorem C129_scaling (hb : m.PowBig) (hm : m.Ok) (h : (2 : ℝ) ^ (512 : ℤ) ≤ lam) (hr : Rep lam) (hf : lam < (2 : ℝ) ^ (1024 : ℤ)) (L : ℤ) :
    (∀ J_min, 2 ≤ J_min → scal_bandlimit64 m L J_min lam true = .error .overflow) ∧
    scal_bandlimit64 m L 0 lam true = .ok (min 1 L) ∧ scal_bandlimit64 m L 1 lam true = .ok (min ⌈lam⌉ L) := by
  have h0 : 0 < lam := lt_of_lt_of_le (by positivity) h
  refine ⟨fun J_min hJ => ?_, ?_, ?_⟩
  · unfold scal_bandlimit64
    rw [if_pos rfl, hb.raises h0 (square_big h hJ)]
    rfl
  · have h1 : (1 : ℝ) < (2 : ℝ) ^ (1024 : ℤ) := one_lt_zpow₀ (by norm_num) (by norm_num)
    have e := hm.pow_exact lam 0 h0.ne' (by rw [zpow_zero]; exact rep_one) (by rwa [zpow_zero, abs_one])
    unfold scal_bandlimit64
    rw [if_pos rfl, Libm.pyPow_fin e, zpow_zero]
    simp [F64.ceil, Py.bind_ok]
  · have e := hm.pow_exact lam 1 h0.ne' (by rwa [zpow_one]) (by rwa [zpow_one, abs_of_pos h0])
    unfold scal_bandlimit64
    rw [if_pos rfl, Libm.pyPow_fin e, zpow_one]
    rfl

/-- **C129** the exact band-limit is `L` for all of these, and so it is without multiresolution -/
theorem C129_exact (h : (2 : ℝ) ^ (512 : ℤ) ≤ lam) (hj : 0 ≤ j) (hL : (L : ℝ) ≤ lam) :
    wav_j_bandlimit L j lam true = L ∧ wav_j_bandlimit64 m L j lam false = .ok L ∧ LN_j64 m L j N lam false = .ok (L, N, 0) := by
  have h1 : (1 : ℝ) ≤ lam := le_trans (one_le_zpow₀ (by norm_num) (by norm_num)) h
  refine ⟨?_, rfl, rfl⟩
  have e : ∀ n : ℤ, 1 ≤ n → L ≤ ⌈lam ^ n⌉ := fun n hn => by
    have h2 : lam ≤ lam ^ n := by
      calc lam = lam ^ (1 : ℤ) := (zpow_one _).symm
        _ ≤ lam ^ n := zpow_le_zpow_right₀ h1 hn
    exact_mod_cast (hL.trans h2).trans (Int.le_ceil _)
  unfold wav_j_bandlimit
  simp only [if_true]
  exact min_eq_right (e _ (by split_ifs <;> omega))

/-- **C129** conversely all band-limits can be computed as long as `(L + 1) lam²` is at most 2^1023: for every scale up to the `j_max` found in double precision -/
theorem C129_safe (hs : m.PowSmall) (hf : LogOk lf) (hL : 1 ≤ L) (hL' : L ≤ 2 ^ 40) (hlam : 1 < lam) (hr : Rep lam)
    (hb : ((L : ℝ) + 1) * lam ^ (2 : ℤ) ≤ (2 : ℝ) ^ (1023 : ℤ)) (mr : Bool) (N : ℤ) :
    ∃ J, j_max64 lf L lam = .ok J ∧ ∀ j, 0 ≤ j → j ≤ J → (∃ n, scal_bandlimit64 m L j lam mr = .ok n ∧ n ≤ L) ∧
      (∃ n, wav_j_bandlimit64 m L j lam mr = .ok n ∧ n ≤ L) ∧ ∃ r, LN_j64 m L j N lam mr = .ok r := by
  have h0 : (0 : ℝ) < lam := by linarith
  have hLr : (1 : ℝ) ≤ L := by exact_mod_cast hL
  have hsq : lam ^ (2 : ℤ) ≤ (2 : ℝ) ^ (1023 : ℤ) := by
    refine le_trans ?_ hb
    exact le_mul_of_one_le_left (by positivity) (by linarith)
  have hl1 : lam < (2 : ℝ) ^ (1024 : ℤ) := by
    have h1 : lam ≤ lam ^ (2 : ℤ) := by
      calc lam = lam ^ (1 : ℤ) := (zpow_one _).symm
        _ ≤ lam ^ (2 : ℤ) := zpow_le_zpow_right₀ hlam.le (by norm_num)
    exact (h1.trans hsq).trans_lt (zpow_lt_zpow_right₀ (by norm_num) (by norm_num))
  obtain ⟨J, hJ, hJ0, hJ1, -, -⟩ := C103_top_scale hf hL hL' hlam hr hl1
  refine ⟨J, hJ, fun j hj0 hj1 => ?_⟩
  have hp : ∀ n : ℤ, n ≤ J + 1 ∨ n ≤ 2 → ∃ y, m.pyPow (.fin lam) n = .ok (.fin y) := by
    intro n hn
    have h1 : lam ^ n ≤ (2 : ℝ) ^ (1023 : ℤ) := by
      rcases hn with hn | hn
      · refine le_trans (zpow_le_zpow_right₀ hlam.le hn) (le_trans ?_ hb)
        rw [show J + 1 = (J - 1) + 2 by ring, zpow_add₀ h0.ne']
        exact mul_le_mul_of_nonneg_right (by linarith) (by positivity)
      · exact (zpow_le_zpow_right₀ hlam.le hn).trans hsq
    obtain ⟨y, hy⟩ := hs lam n h0 h1
    exact ⟨y, Libm.pyPow_fin hy⟩
  have hw : ∀ j, 0 ≤ j → j ≤ J ∨ j ≤ 1 → ∃ n, wav_j_bandlimit64 m L j lam mr = .ok n ∧ n ≤ L := by
    intro j h1 h2
    cases mr
    · exact ⟨L, rfl, le_rfl⟩
    obtain ⟨y, hy⟩ := hp ((if j = 0 then j + 1 else j) + 1) (by split_ifs <;> omega)
    unfold wav_j_bandlimit64
    simp only [if_true]
    rw [hy]
    exact ⟨_, rfl, min_le_right _ _⟩
  refine ⟨?_, hw j hj0 (Or.inl hj1), ?_⟩
  · cases mr
    · exact ⟨L, rfl, le_rfl⟩
    obtain ⟨y, hy⟩ := hp j (by omega)
    unfold scal_bandlimit64
    rw [if_pos rfl, hy]
    exact ⟨_, rfl, min_le_right _ _⟩
  · obtain ⟨i, hi, hi0⟩ : ∃ i, (if j = 0 then j + 1 else j) = i ∧ 1 ≤ i ∧ (i ≤ J ∨ i ≤ 1) := ⟨_, rfl, by split_ifs <;> omega⟩
    unfold LN_j64
    simp only [hi]
    obtain ⟨n, hn, -⟩ := hw i (by omega) hi0.2
    rw [hn, Py.bind_ok]
    cases mr
    · exact ⟨_, rfl⟩
    obtain ⟨y, hy⟩ := hp (i - 1) (by omega)
    unfold L0_j64
    simp only [if_true, if_pos (show i ≠ 0 by omega)]
    rw [hy]
    exact ⟨_, rfl⟩

/-- a correctly rounding C library is like this -/
theorem Libm.exact_powBig : Libm.exact.PowBig := by
  intro x n _ h
  have h2 := le_rnd (rep_pow (by norm_num : (-1074 : ℤ) ≤ 1024)) h
  change F64.of _ = _
  unfold F64.of
  rw [if_pos h2]

theorem Libm.exact_powSmall : Libm.exact.PowSmall := by
  intro x n h0 h
  have h2 := rnd_le (rep_pow (by norm_num : (-1074 : ℤ) ≤ 1023)) h
  have h3 : (2 : ℝ) ^ (1023 : ℤ) < 2 ^ (1024 : ℤ) := zpow_lt_zpow_right₀ (by norm_num) (by norm_num)
  have h4 := rnd_nonneg (x := x ^ n) (by positivity)
  refine ⟨rnd (x ^ n), ?_⟩
  change F64.of _ = _
  unfold F64.of
  rw [if_neg (not_le.2 (h2.trans_lt h3)), if_neg]
  have : (0 : ℝ) < 2 ^ (1024 : ℤ) := by positivity
  intro h5
  clear h2 h3 h
  generalize (2 : ℝ) ^ (1024 : ℤ) = A at *
  linarith

/-- `lam = 2.0 ** 512`, `L = 4`: the band-limits of scale 0 and 1 raise, exactly they are 4 -/
example : LN_j64 Libm.exact 4 1 1 ((2 : ℝ) ^ (512 : ℤ)) true = .error .overflow ∧ wav_j_bandlimit 4 1 ((2 : ℝ) ^ (512 : ℤ)) true = 4 :=
  ⟨(C129_every_scale Libm.exact_powBig le_rfl (by norm_num) 4 1).2, (C129_exact (m := Libm.exact) (N := 1) le_rfl (by norm_num) (by
    have := zpow_le_zpow_right₀ (a := (2 : ℝ)) (by norm_num) (by norm_num : (2 : ℤ) ≤ 512)
    refine le_trans ?_ this
    norm_num)).1⟩

/-- `lam = 1.5`, `L = 1000`: everything is computed -/
example : ∃ J, j_max64 logExact 1000 (3 / 2) = .ok J ∧ ∀ j, 0 ≤ j → j ≤ J → ∃ r, LN_j64 Libm.exact 1000 j 3 (3 / 2) true = .ok r := by
  obtain ⟨J, h, h'⟩ := C129_safe (L := 1000) (lam := 3 / 2) Libm.exact_powSmall logExact_ok (by norm_num) (by norm_num) (by norm_num)
    ⟨3, -1, by norm_num, by norm_num, by norm_num⟩ (by
      have := zpow_le_zpow_right₀ (a := (2 : ℝ)) (by norm_num) (by norm_num : (20 : ℤ) ≤ 1023)
      refine le_trans ?_ this
      norm_num) true 3
  exact ⟨J, h, fun j h0 h1 => (h' j h0 h1).2.2⟩

end S2wav
