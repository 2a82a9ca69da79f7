import Verif.Props.RoundedSamples

/-! # C139: the band-limits in double precision for any `lam`, with a power that is off by less than one unit in the last place -/

namespace S2wav
open Classical

variable {m : Libm} {L J_min j : ℤ} {lam : ℝ}

/-- the computed power is finite and one of the (at most two) doubles next to the exact one: no double lies between the two -/
def FaithfulPow (m : Libm) (lam : ℝ) (n : ℤ) : Prop :=
  ∃ y, m.pow lam n = .fin y ∧ ∀ z, Rep z → (z ≤ lam ^ n → z ≤ y) ∧ (lam ^ n ≤ z → y ≤ z)

/-- the ceiling of a faithfully rounded number, capped at a band-limit -/
theorem ceil_faithful {v y : ℝ} (hL : L ≤ 2 ^ 53) (h0 : 0 ≤ v) (h : ∀ z, Rep z → (z ≤ v → z ≤ y) ∧ (v ≤ z → y ≤ z)) :
    (min ⌈y⌉ L = min ⌈v⌉ L ∨ (min ⌈y⌉ L = min ⌈v⌉ L - 1 ∧ y = ((⌈v⌉ - 1 : ℤ) : ℝ))) ∧
    (v ≤ 2 ^ 53 → ⌈y⌉ = ⌈v⌉ ∨ (⌈y⌉ = ⌈v⌉ - 1 ∧ y = ((⌈v⌉ - 1 : ℤ) : ℝ))) := by
  have small : v ≤ 2 ^ 53 → ⌈y⌉ = ⌈v⌉ ∨ (⌈y⌉ = ⌈v⌉ - 1 ∧ y = ((⌈v⌉ - 1 : ℤ) : ℝ)) := by
    intro hv
    have hc0 : 0 ≤ ⌈v⌉ := Int.ceil_nonneg h0
    have hc1 : ⌈v⌉ ≤ 2 ^ 53 := Int.ceil_le.2 (by norm_num at hv ⊢; linarith)
    have a := (h (⌈v⌉ : ℤ) (rep_int (abs_le.2 ⟨by omega, hc1⟩))).2 (Int.le_ceil v)
    have b := (h ((⌈v⌉ - 1 : ℤ) : ℝ) (rep_int (abs_le.2 ⟨by omega, by omega⟩))).1 (by
      have := Int.ceil_lt_add_one v
      push_cast; linarith)
    rcases b.eq_or_lt with b | b
    · right
      refine ⟨?_, b.symm⟩
      rw [← b, Int.ceil_intCast]
    · left
      refine le_antisymm (Int.ceil_le.2 a) ?_
      have := Int.lt_ceil.2 b
      omega
  refine ⟨?_, small⟩
  rcases le_total v (2 ^ 53) with hv | hv
  · rcases small hv with e | ⟨e, e'⟩
    · left; rw [e]
    · rcases le_or_gt L (⌈v⌉ - 1) with c | c
      · left; rw [e, min_eq_right c, min_eq_right (by omega)]
      · right
        refine ⟨?_, e'⟩
        rw [e, min_eq_left c.le, min_eq_left (by omega)]
  · left
    have r : Rep ((2 ^ 53 : ℤ) : ℝ) := rep_int (by norm_num)
    have a := (h _ r).1 (by norm_num at hv ⊢; linarith)
    have a1 : (2 ^ 53 : ℤ) ≤ ⌈y⌉ := by exact_mod_cast a.trans (Int.le_ceil y)
    have a2 : (2 ^ 53 : ℤ) ≤ ⌈v⌉ := by
      have : ((2 ^ 53 : ℤ) : ℝ) ≤ ⌈v⌉ := by norm_num at hv ⊢; exact hv.trans (Int.le_ceil v)
      exact_mod_cast this
    rw [min_eq_right (hL.trans a1), min_eq_right (hL.trans a2)]

/-- **C139** `scal_bandlimit`: exact, or one less if the computed power is the integer just below the exact one -/
theorem C139_scaling (hp : FaithfulPow m lam J_min) (hlam : 0 < lam) (hL : L ≤ 2 ^ 53) (mr : Bool) :
    ∃ b, scal_bandlimit64 m L J_min lam mr = .ok b ∧ (b = scal_bandlimit L J_min lam mr ∨
      (b = scal_bandlimit L J_min lam mr - 1 ∧ m.pow lam J_min = .fin b)) := by
  obtain ⟨y, hy, h⟩ := hp
  unfold scal_bandlimit64 scal_bandlimit
  cases mr
  · exact ⟨L, rfl, .inl rfl⟩
  · have e : m.pyPow (.fin lam) J_min = .ok (.fin y) := by simp only [Libm.pyPow, hy]
    refine ⟨min ⌈y⌉ L, ?_, ?_⟩
    · simp only [if_true]
      rw [e]; rfl
    · simp only [if_true]
      obtain ⟨h1, h2⟩ := ceil_faithful hL (zpow_pos hlam J_min).le h
      rcases h1 with h1 | ⟨h1, h3⟩
      · exact .inl h1
      · right
        refine ⟨h1, ?_⟩
        rw [hy, h3, Int.ceil_intCast]
        congr 2
        rw [h3, Int.ceil_intCast] at h1
        rcases le_or_gt (⌈lam ^ J_min⌉ - 1) L with c | c
        · rw [min_eq_left c]
        · rw [min_eq_right c.le, min_eq_right (by omega)] at h1; omega

/-- **C139** `wav_j_bandlimit`: the same -/
theorem C139_wavelet (hp : FaithfulPow m lam ((if j = 0 then 1 else j) + 1)) (hlam : 0 < lam) (hL : L ≤ 2 ^ 53) (mr : Bool) :
    ∃ b, wav_j_bandlimit64 m L j lam mr = .ok b ∧ (b = wav_j_bandlimit L j lam mr ∨
      (b = wav_j_bandlimit L j lam mr - 1 ∧ m.pow lam ((if j = 0 then 1 else j) + 1) = .fin b)) := by
  have e : (if j = 0 then j + 1 else j) = if j = 0 then 1 else j := by split_ifs <;> omega
  have h := C139_scaling hp hlam hL mr
  unfold scal_bandlimit64 scal_bandlimit at h
  unfold wav_j_bandlimit64 wav_j_bandlimit
  simp only [e]
  exact h

/-- **C139** `L0_j`: the same, where the power is at most `2^53` -/
theorem C139_lowest (hp : j ≠ 0 → FaithfulPow m lam (j - 1)) (hlam : 0 < lam) (hb : lam ^ (j - 1) ≤ 2 ^ 53) :
    ∃ b, L0_j64 m j lam = .ok b ∧ (b = L0_j j lam ∨ (b = L0_j j lam - 1 ∧ m.pow lam (j - 1) = .fin b)) := by
  unfold L0_j64 L0_j
  by_cases hj : j ≠ 0
  · obtain ⟨y, hy, h⟩ := hp hj
    have e : m.pyPow (.fin lam) (j - 1) = .ok (.fin y) := by simp only [Libm.pyPow, hy]
    rw [if_pos hj, if_pos hj, e]
    refine ⟨⌈y⌉, rfl, ?_⟩
    rcases (ceil_faithful (L := 0) (by norm_num) (zpow_pos hlam (j - 1)).le h).2 hb with h1 | ⟨h1, h2⟩
    · exact .inl h1
    · right
      refine ⟨h1, ?_⟩
      rw [hy, h1, ← h2]
  · rw [if_neg hj, if_neg hj]
    exact ⟨0, rfl, .inl rfl⟩

/-- a correctly rounded power is faithful -/
theorem faithful_of_rounded {n : ℤ} (h : m.pow lam n = F64.of (lam ^ n)) (hb : |lam ^ n| ≤ (2 : ℝ) ^ (1000 : ℤ)) : FaithfulPow m lam n :=
  ⟨rnd (lam ^ n), by rw [h, F64.of_fin hb], fun _ hz => ⟨le_rnd hz, rnd_le hz⟩⟩

/-- the double nearest to the cube root of 2, which is what Python computes for `2 ** (1 / 3)` -/
noncomputable def cbrtTwo : ℝ := 5674179970822795 / 2 ^ 52

theorem cbrtTwo_rep : Rep cbrtTwo := ⟨5674179970822795, -52, by norm_num, by norm_num, by unfold cbrtTwo; norm_num⟩

theorem cbrtTwo_cube : F64.of (cbrtTwo ^ (3 : ℤ)) = .fin 2 ∧ ⌈cbrtTwo ^ (3 : ℤ)⌉ = 3 := by
  have e : cbrtTwo ^ (3 : ℤ) = (5674179970822795 / 2 ^ 52) ^ 3 := by
    unfold cbrtTwo
    exact zpow_natCast _ 3
  rw [e]
  have hr : rnd ((5674179970822795 / 2 ^ 52) ^ 3) = (2 ^ 52 : ℤ) * (2 : ℝ) ^ (-51 : ℤ) := by
    refine rnd_eval (2 ^ 52) (-51) (by norm_num) ?_ ?_ ?_ ?_ <;> norm_num
  constructor
  · rw [F64.of_fin' (by rw [abs_of_nonneg] <;> norm_num), hr]
    norm_num
  · rw [Int.ceil_eq_iff]
    norm_num

/-- **C139** one less does occur: with `lam = 2 ** (1 / 3)` and a correctly rounded power the scaling function at `J_min = 3` and the
wavelet at `j = 2` get the band-limit 2, where the formula says 3, for every `L ≥ 3`. -/
theorem C139_one_less (hp : m.pow cbrtTwo 3 = F64.of (cbrtTwo ^ (3 : ℤ))) (hL : 3 ≤ L) :
    scal_bandlimit64 m L 3 cbrtTwo true = .ok 2 ∧ scal_bandlimit L 3 cbrtTwo true = 3 ∧
    wav_j_bandlimit64 m L 2 cbrtTwo true = .ok 2 ∧ wav_j_bandlimit L 2 cbrtTwo true = 3 := by
  obtain ⟨h1, h2⟩ := cbrtTwo_cube
  rw [h1] at hp
  have e : m.pyPow (.fin cbrtTwo) 3 = .ok (.fin 2) := by simp only [Libm.pyPow, hp]
  have a : scal_bandlimit64 m L 3 cbrtTwo true = .ok 2 := by
    unfold scal_bandlimit64
    simp only [if_true]
    rw [e]
    have c : ⌈(2 : ℝ)⌉ = 2 := by exact_mod_cast Int.ceil_intCast (R := ℝ) 2
    show Except.ok (min ⌈(2 : ℝ)⌉ L) = _
    rw [c, min_eq_left (by omega)]
  have b : scal_bandlimit L 3 cbrtTwo true = 3 := by
    unfold scal_bandlimit
    rw [if_pos rfl, h2, min_eq_left hL]
  refine ⟨a, b, ?_, ?_⟩
  · rw [← a]; rfl
  · rw [← b]; rfl

/-- between a number and the next power of `lam` there is a double -/
theorem rep_between {v : ℝ} (hr : Rep lam) (hlam : 1 < lam) (hv : (2 : ℝ) ^ (-1022 : ℤ) ≤ v) : ∃ z, Rep z ∧ v ≤ z ∧ z ≤ v * lam := by
  have hv0 : 0 < v := lt_of_lt_of_le (by positivity) hv
  have hl : 1 + 1 / 2 ^ 52 ≤ lam := by
    obtain ⟨k, hk⟩ := rep_mult (E := 0) hr (by rw [zpow_zero, abs_of_pos (by linarith)]; exact hlam.le)
    have e : (2 : ℝ) ^ ((0 : ℤ) - 52) = 1 / 2 ^ 52 := by norm_num
    rw [e] at hk
    have h1 : (2 ^ 52 : ℝ) < k := by
      rw [hk, mul_one_div, lt_div_iff₀ (by positivity), one_mul] at hlam; exact hlam
    have h2 : (2 ^ 52 : ℤ) + 1 ≤ k := by
      have : (2 ^ 52 : ℤ) < k := by exact_mod_cast h1
      omega
    have h3 : (2 ^ 52 : ℝ) + 1 ≤ k := by exact_mod_cast h2
    rw [hk, mul_one_div, le_div_iff₀ (by positivity)]
    norm_num at h3 ⊢; linarith
  have hu := ulp_pos v
  obtain ⟨e, he, hue⟩ := ulp_exp v
  have h1 : 2 ^ 52 * ulp v ≤ v := by
    obtain ⟨-, b, -⟩ := ulp_normal (x := v) (by rw [abs_of_pos hv0]; exact hv)
    rw [abs_of_pos hv0] at b
    exact b
  have h2 : v < 2 ^ 53 * ulp v := by
    have := abs_lt_ulp v
    rwa [abs_of_pos hv0] at this
  refine ⟨⌈v / ulp v⌉ * ulp v, ⟨⌈v / ulp v⌉, e, ?_, he, by rw [hue]⟩, ?_, ?_⟩
  · rw [abs_of_nonneg (Int.ceil_nonneg (by positivity)), Int.ceil_le]
    push_cast
    rw [div_le_iff₀ hu]
    norm_num at h2 ⊢; linarith
  · have := Int.le_ceil (v / ulp v)
    rwa [div_le_iff₀ hu] at this
  · have h3 := (Int.ceil_lt_add_one (v / ulp v)).le
    have h4 := mul_le_mul_of_nonneg_right h3 hu.le
    rw [add_mul, div_mul_cancel₀ _ hu.ne', one_mul] at h4
    have h5 := mul_le_mul_of_nonneg_left hl hv0.le
    norm_num at h1 h5
    linarith

/-- **C139** faithful powers of a double `lam > 1` do not decrease (the hypothesis of C104) -/
theorem C139_monotone {K : ℤ} (hr : Rep lam) (hlam : 1 < lam) (hb : lam ≤ (2 : ℝ) ^ (1000 : ℤ)) (hK : 0 ≤ K)
    (hp : ∀ n, -1 ≤ n → n ≤ K → FaithfulPow m lam n) : ∃ p, PowMono m lam K p ∧ p 0 = 1 := by
  choose! p h1 h2 using hp
  have low : ∀ n : ℤ, -1 ≤ n → (2 : ℝ) ^ (-1000 : ℤ) ≤ lam ^ n := by
    intro n hn
    refine le_trans ?_ (zpow_le_zpow_right₀ hlam.le hn)
    rw [zpow_neg, zpow_neg_one]
    exact inv_anti₀ (by linarith) hb
  refine ⟨p, ⟨fun n a b => ⟨h1 n a b, ?_⟩, fun n a b => ?_⟩, ?_⟩
  · exact lt_of_lt_of_le (by positivity) ((h2 n a b _ (rep_pow (e := -1000) (by norm_num))).1 (low n a))
  · have hv : (2 : ℝ) ^ (-1022 : ℤ) ≤ lam ^ n := le_trans (zpow_le_zpow_right₀ (by norm_num) (by norm_num)) (low n a)
    obtain ⟨z, hz, hz1, hz2⟩ := rep_between hr hlam hv
    rw [← zpow_add_one₀ (by linarith)] at hz2
    exact ((h2 n a b.le z hz).2 hz1).trans ((h2 (n + 1) (by omega) (by omega) z hz).1 hz2)
  · have r : Rep (1 : ℝ) := by have := rep_int (n := 1) (by norm_num); push_cast at this; exact this
    have := h2 0 (by norm_num) hK 1 r
    rw [zpow_zero] at this
    exact le_antisymm (this.2 le_rfl) (this.1 le_rfl)

/-- **C139** the filters vanish outside the computed band-limits, for every double `lam > 1` and faithful powers (C104 for any `lam`). -/
theorem C139_support {N J : ℤ} {jm : JMax} {inv : F64} {c : ℝ} (hJ : jm L lam = .ok J) (hL : 1 ≤ L) (hL' : L ≤ 2 ^ 53) (hr : Rep lam) (hlam : 1 < lam)
    (hb : lam ≤ (2 : ℝ) ^ (1000 : ℤ)) (hp : ∀ n, -1 ≤ n → n ≤ J + 1 → FaithfulPow m lam n) (h0 : 0 ≤ J)
    (hi : F64.pdiv (.fin 1) (.fin lam) = .ok inv) (hn : part_scaling_fn64 m inv (.fin 1) 300 (.fin lam) = .ok (.fin c)) (hc : c ≠ 0)
    {psi : Arr2 F64} {phi : Arr1 F64} (h : filters_axisym_vectorised64 m jm L J_min lam = .ok (psi, phi)) :
    (∀ j Lj Nj L0j, 0 ≤ j → j ≤ J → LN_j64 m L j N lam true = .ok (Lj, Nj, L0j) →
      ∀ l, 0 ≤ l → l < L → Lj ≤ l ∨ l < L0j → psi.v j l = .fin 0) ∧
    (∀ Ls, scal_bandlimit64 m L J_min lam true = .ok Ls → ∀ l, 0 ≤ l → l < L → Ls ≤ l → phi.v l = .fin 0) := by
  obtain ⟨p, hm, hp0⟩ := C139_monotone hr hlam hb (by omega) hp
  exact C104_support hJ hL hL' hm hp0.le hi hn hc h

/-- **C139** what `LN_j` returns in double precision is consistent, for every double `lam > 1` and faithful powers: `1 ≤ Lj ≤ L`, the lower
limit is at least 1 and not above `Lj` (unless it exceeds `L`), and `Nj` is the least number of the parity of `N` not below `min(N, Lj)`. -/
theorem C139_consistent {K N : ℤ} (hr : Rep lam) (hlam : 1 < lam) (hb : lam ≤ (2 : ℝ) ^ (1000 : ℤ)) (hK : 2 ≤ K) (hj : 0 ≤ j) (hjK : j < K)
    (hL : 1 ≤ L) (hp : ∀ n, -1 ≤ n → n ≤ K → FaithfulPow m lam n) :
    ∃ Lj Nj L0j, LN_j64 m L j N lam true = .ok (Lj, Nj, L0j) ∧ 1 ≤ Lj ∧ Lj ≤ L ∧ 1 ≤ L0j ∧ min L0j L ≤ Lj ∧
      min N Lj ≤ Nj ∧ Nj % 2 = N % 2 ∧ ∀ n, min N Lj ≤ n → n % 2 = N % 2 → Nj ≤ n := by
  obtain ⟨p, hm, hp0⟩ := C139_monotone hr hlam hb (by omega) hp
  obtain ⟨i, hi, i1, iK⟩ : ∃ i, (if j = 0 then j + 1 else j) = i ∧ 1 ≤ i ∧ i < K := ⟨_, rfl, by split_ifs <;> omega, by split_ifs <;> omega⟩
  have e1 := hm.pow (n := i + 1) (by omega) (by omega)
  have e2 := hm.pow (n := i - 1) (by omega) (by omega)
  have a1 : 1 ≤ ⌈p (i - 1)⌉ := by
    have := hm.le (a := 0) (b := i - 1) (by norm_num) (by omega) (by omega)
    rw [hp0] at this
    exact Int.one_le_ceil_iff.2 (by linarith)
  have a2 : ⌈p (i - 1)⌉ ≤ ⌈p (i + 1)⌉ := Int.ceil_mono (hm.le (by omega) (by omega) (by omega))
  refine ⟨min ⌈p (i + 1)⌉ L, min N (min ⌈p (i + 1)⌉ L) + (min N (min ⌈p (i + 1)⌉ L) + N) % 2, ⌈p (i - 1)⌉, ?_, ?_⟩
  · unfold LN_j64
    simp only [hi]
    unfold wav_j_bandlimit64 L0_j64
    have e : (if i = 0 then i + 1 else i) = i := if_neg (by omega)
    simp only [e, if_true, if_pos (show i ≠ 0 by omega), e1, e2]
    rfl
  · generalize min N (min ⌈p (i + 1)⌉ L) = q
    refine ⟨by omega, by omega, a1, by omega, by omega, by omega, fun n h1 h2 => by omega⟩

/-- the hypotheses are met: a library with correctly rounded powers, `lam = 1.5` (all powers up to the seventh) and `lam = 2 ** (1 / 3)` -/
example : ∃ m : Libm, (∀ n : ℤ, 0 ≤ n → n ≤ 7 → FaithfulPow m (3 / 2) n) ∧ m.pow cbrtTwo 3 = F64.of (cbrtTwo ^ (3 : ℤ)) := by
  refine ⟨⟨fun _ => 0, fun x n => F64.of (x ^ n)⟩, fun n h0 h1 => faithful_of_rounded rfl ?_, rfl⟩
  rw [abs_of_pos (by positivity)]
  refine le_trans (zpow_le_zpow_right₀ (by norm_num) (by omega : n ≤ 1000)) ?_
  exact zpow_le_zpow_left₀ (by norm_num) (by norm_num) (by norm_num)

/-- and for `lam = 2` with every library as assumed elsewhere (the normalisation is finite and not zero: see `C104_two`) -/
example (hm : m.Ok) (n : ℤ) (h0 : -1 ≤ n) (h1 : n ≤ 1000) : FaithfulPow m 2 n := by
  refine ⟨2 ^ n, hm.pow_exact 2 n (by norm_num) (rep_pow (by omega)) ?_, fun z _ => ⟨id, id⟩⟩
  rw [abs_of_pos (by positivity)]
  exact zpow_lt_zpow_right₀ (by norm_num) (by omega)

end S2wav
