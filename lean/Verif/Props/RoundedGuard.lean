import Verif.Props.RoundedErrors
import Verif.Model.Ieee32Filters
import Verif.Model.IeeeSpin

/-! # C138: the check of `J_min` in floating point -/

namespace S2wav
open Classical

variable {jm : JMax} {lf : ℝ → F64} {L J J_min : ℤ} {lam : ℝ} {e : PyErr}

/-- **C138** whatever the computed top scale `J` is, each of the floating point constructions of the axisymmetric filters (NumPy loop, NumPy
vectorised, JAX in double and in single precision) raises `ValueError` unless `0 ≤ J_min < J`. -/
theorem C138_axisym (m : Libm) (hj : jm L lam = .ok J) (h : J_min < 0 ∨ J ≤ J_min) :
    filters_axisym64 m jm L J_min lam = .error .valueError ∧ filters_axisym_vectorised64 m jm L J_min lam = .error .valueError ∧
    filters_axisym_jax64 m jm L J_min lam = .error .valueError ∧ Single.filters_axisym_jax32 m jm L J_min lam = .error .valueError := by
  unfold filters_axisym64 filters_axisym_vectorised64 filters_axisym_jax64 Single.filters_axisym_jax32
  rw [hj]
  have h' : J_min ≥ J ∨ J_min < 0 := h.symm
  refine ⟨?_, ?_, ?_, ?_⟩ <;>
  · show (if J_min ≥ J ∨ J_min < 0 then _ else _) = _
    rw [if_pos h']

/-- **C138** and an exception of `j_max` is passed on. -/
theorem C138_axisym_error (m : Libm) (hj : jm L lam = .error e) (J_min : ℤ) :
    filters_axisym64 m jm L J_min lam = .error e ∧ filters_axisym_vectorised64 m jm L J_min lam = .error e ∧
    filters_axisym_jax64 m jm L J_min lam = .error e ∧ Single.filters_axisym_jax32 m jm L J_min lam = .error e := by
  unfold filters_axisym64 filters_axisym_vectorised64 filters_axisym_jax64 Single.filters_axisym_jax32
  rw [hj]
  exact ⟨rfl, rfl, rfl, rfl⟩

theorem zeros1_cases (n : ℤ) : (zeros1 n : Py (Arr1 F64)) = .error .valueError ∨ ∃ x : Arr1 F64, zeros1 n = .ok x := by
  unfold zeros1
  split_ifs
  · exact .inl rfl
  · exact .inr ⟨_, rfl⟩

theorem zeros3_cases (d r c : ℤ) : (zeros3 d r c : Py (Arr3 C64)) = .error .valueError ∨ ∃ x : Arr3 C64, zeros3 d r c = .ok x := by
  unfold zeros3
  split_ifs
  · exact .inl rfl
  · exact .inr ⟨_, rfl⟩

/-- **C138** the directional constructions: the same. -/
theorem C138_directional (m mx : Libm) (lg : F64 → F64) (N spin spin0 : ℤ) (hj : jm L lam = .ok J) (h : J_min < 0 ∨ J ≤ J_min) :
    filters_directional64 m lg jm L N J_min lam spin = .error .valueError ∧
    filters_directional_spin64 m lg jm L N J_min lam spin spin0 = .error .valueError ∧
    filters_directional_vectorised64 m lg jm L N J_min lam spin = .error .valueError ∧
    filters_directional_jax64 m mx lg jm L N J_min lam spin = .error .valueError ∧
    Single.filters_directional_jax32 m mx lg jm L N J_min lam spin = .error .valueError := by
  obtain ⟨h1, h2, h3, h4⟩ := C138_axisym m hj h
  unfold filters_directional64 filters_directional_spin64 filters_directional_vectorised64 filters_directional_jax64
    Single.filters_directional_jax32
  rw [hj, h1, h2, h3, h4]
  refine ⟨?_, ?_, rfl, rfl, rfl⟩ <;>
  · rcases zeros1_cases L with a | ⟨x, a⟩ <;> rw [a]
    · rfl
    show ((zeros3 (J + 1) L (2 * L - 1) : Py (Arr3 C64)) >>= _) = _
    rcases zeros3_cases (J + 1) L (2 * L - 1) with b | ⟨y, b⟩ <;> rw [b] <;> rfl

/-- **C138** -/
theorem C138_directional_error (m mx : Libm) (lg : F64 → F64) (N spin spin0 : ℤ) (hj : jm L lam = .error e) (J_min : ℤ) :
    filters_directional64 m lg jm L N J_min lam spin = .error e ∧
    filters_directional_spin64 m lg jm L N J_min lam spin spin0 = .error e ∧
    filters_directional_vectorised64 m lg jm L N J_min lam spin = .error e ∧
    filters_directional_jax64 m mx lg jm L N J_min lam spin = .error e ∧
    Single.filters_directional_jax32 m mx lg jm L N J_min lam spin = .error e := by
  obtain ⟨-, h2, h3, h4⟩ := C138_axisym_error m hj J_min
  unfold filters_directional64 filters_directional_spin64 filters_directional_vectorised64 filters_directional_jax64
    Single.filters_directional_jax32
  rw [hj, h2, h3, h4]
  exact ⟨rfl, rfl, rfl, rfl, rfl⟩

/-- **C138** for `lam ≤ 1` there are no filters at all: with the computed `j_max`, whatever `L`, `J_min`, number of directions and spins,
every construction raises the exception that the exact `filters_axisym` raises. -/
theorem C138_no_filters (m mx : Libm) (lg : F64 → F64) (hf : LogOk lf) (hL : |L| ≤ 2 ^ 40) (hr : Rep lam) (h : lam ≤ 1)
    (N J_min spin spin0 : ℤ) : ∃ e, filters_axisym j_max L J_min lam = .error e ∧
    (filters_axisym64 m (j_max64 lf) L J_min lam = .error e ∧ filters_axisym_vectorised64 m (j_max64 lf) L J_min lam = .error e ∧
      filters_axisym_jax64 m (j_max64 lf) L J_min lam = .error e ∧ Single.filters_axisym_jax32 m (j_max64 lf) L J_min lam = .error e) ∧
    filters_directional64 m lg (j_max64 lf) L N J_min lam spin = .error e ∧
    filters_directional_spin64 m lg (j_max64 lf) L N J_min lam spin spin0 = .error e ∧
    filters_directional_vectorised64 m lg (j_max64 lf) L N J_min lam spin = .error e ∧
    filters_directional_jax64 m mx lg (j_max64 lf) L N J_min lam spin = .error e ∧
    Single.filters_directional_jax32 m mx lg (j_max64 lf) L N J_min lam spin = .error e := by
  have hb : lam < (2 : ℝ) ^ (1024 : ℤ) := by
    have : (1 : ℝ) < (2 : ℝ) ^ (1024 : ℤ) := one_lt_zpow₀ (by norm_num) (by norm_num)
    exact lt_of_le_of_lt h this
  cases hj : j_max L lam with
  | error e =>
    have hj' := (C103_exceptions hf hL hr hb e).2 hj
    refine ⟨e, ?_, C138_axisym_error m hj' J_min, C138_directional_error m mx lg N spin spin0 hj' J_min⟩
    unfold filters_axisym
    rw [hj]; rfl
  | ok J =>
    have h1 := (C01_errors L lam).2.2.1.1 ⟨J, hj⟩
    have hJ := (C01_errors L lam).2.2.2 J hj (lt_of_le_of_ne h h1.2.2)
    obtain ⟨J', hJ', hj'⟩ : ∃ J ≤ 0, j_max64 lf L lam = .ok J := by
      rcases h1.2.1.eq_or_lt with h0 | h0
      · rw [C103_errors hf (hL.trans (by norm_num)) hr hb (.inr (.inl h0.ge)), hj]
        exact ⟨J, hJ, rfl⟩
      · exact C103_contracting hf h1.1 ((abs_le.1 hL).2.trans (by norm_num)) hr h0 (lt_of_le_of_ne h h1.2.2)
    have hg : J_min < 0 ∨ J' ≤ J_min := by omega
    refine ⟨.valueError, ?_, C138_axisym m hj' hg, C138_directional m mx lg N spin spin0 hj' hg⟩
    unfold filters_axisym
    rw [hj]
    show (if J_min ≥ J ∨ J_min < 0 then _ else _) = _
    rw [if_pos (by omega)]

/-- `L = 64`, `lam = 2`: the computed top scale is 6 or 7, so `J_min = 7` is refused by all of them; so is everything for `lam = 1/2` -/
example (m : Libm) : Single.filters_axisym_jax32 m (j_max64 logExact) 64 7 2 = .error .valueError ∧
    ∃ e, filters_axisym64 m (j_max64 logExact) 64 0 (1 / 2) = .error e := by
  constructor
  · obtain ⟨J, J0, h, h0, h1⟩ := C103_integer (L := 64) (b := 2) logExact_ok (by norm_num) (by norm_num) (by norm_num) (by norm_num)
    push_cast at h h0
    have e : j_max 64 2 = .ok 6 := by
      rw [j_max_eq (by norm_num) (by norm_num)]
      congr 1
      have e : Real.log ((64 : ℤ) : ℝ) = 6 * Real.log 2 := by
        rw [show ((64 : ℤ) : ℝ) = 2 ^ 6 by norm_num, Real.log_pow]; norm_num
      rw [e, mul_div_cancel_right₀ _ (Real.log_pos (by norm_num)).ne']
      exact_mod_cast Int.ceil_intCast (R := ℝ) 6
    rw [e] at h0
    injection h0 with h0
    exact (C138_axisym m h (.inr (by omega))).2.2.2
  · obtain ⟨e, -, h, -⟩ := C138_no_filters m m (fun x => x) (L := 64) logExact_ok (by norm_num)
      (⟨1, -1, by norm_num, by norm_num, by norm_num⟩ : Rep (1 / 2)) (by norm_num) 1 0 0 0
    exact ⟨e, h.1⟩

end S2wav
