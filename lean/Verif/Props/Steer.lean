import Mathlib.LinearAlgebra.Matrix.Rank
import Verif.Props.Harmonic
import Verif.Props.Formulas

/-! # Steerability and directional auto-correlation (C72)

Rotating a wavelet by `γ` about its centre multiplies its coefficient of order `n` by `e^{-inγ}`. -/

namespace S2wav
open Classical ComplexConjugate

/-- the factor `e^{-inγ}` of a rotation by `γ` on order `n` -/
noncomputable def rotF (n : ℤ) (γ : ℝ) : ℂ := Complex.exp (-(n * γ * Complex.I))

/-- the interpolating function of the steering formula: the mean of the rotation factors of the `N` orders
`N - 1, N - 3, …, -(N - 1)` -/
noncomputable def steerFn (N : ℕ) (γ : ℝ) : ℂ := (1 / N : ℂ) * ∑ k ∈ Finset.range N, rotF (N - 1 - 2 * k) γ

theorem rotF_add (n n' : ℤ) (γ : ℝ) : rotF (n + n') γ = rotF n γ * rotF n' γ := by
  unfold rotF; rw [← Complex.exp_add]; congr 1; push_cast; ring

theorem rotF_add_angle (n : ℤ) (γ δ : ℝ) : rotF n (γ + δ) = rotF n γ * rotF n δ := by
  unfold rotF; rw [← Complex.exp_add]; congr 1; push_cast; ring

theorem rotF_ne (n : ℤ) (γ : ℝ) : rotF n γ ≠ 0 := Complex.exp_ne_zero _

/-- orthogonality of the rotation factors over the angles `πg/N` -/
theorem rotF_orth {N : ℕ} {d : ℤ} (hd : |d| < N) :
    ∑ g ∈ Finset.range N, rotF (2 * d) (Real.pi * g / N) = if d = 0 then (N : ℂ) else 0 := by
  have hN : (N : ℂ) ≠ 0 := by
    have : (0 : ℤ) < N := lt_of_le_of_lt (abs_nonneg d) hd
    exact_mod_cast this.ne'
  have hpow : ∀ g : ℕ, rotF (2 * d) (Real.pi * g / N) = Complex.exp (-(2 * Real.pi * Complex.I * d / N)) ^ g := by
    intro g
    unfold rotF
    rw [← Complex.exp_nat_mul]; congr 1; push_cast; field_simp
  simp only [hpow]
  split_ifs with h0
  · subst h0; simp
  · have hne : Complex.exp (-(2 * Real.pi * Complex.I * d / N)) ≠ 1 := by
      intro h
      obtain ⟨k, hk⟩ := Complex.exp_eq_one_iff.1 h
      have hp : (2 * Real.pi * Complex.I : ℂ) ≠ 0 := Complex.two_pi_I_ne_zero
      have : (-d : ℂ) = k * N := by
        have h3 : (2 * Real.pi * Complex.I : ℂ) * (-d) = (2 * Real.pi * Complex.I) * (k * N) := by
          field_simp at hk
          linear_combination (2 * Real.pi * Complex.I : ℂ) * hk
        exact mul_left_cancel₀ hp h3
      have h2 : -d = k * N := by exact_mod_cast this
      rcases eq_or_ne k 0 with hk0 | hk0
      · subst hk0; simp at h2; exact h0 h2
      · have h3 : |d| = |k| * N := by rw [← abs_neg, h2, abs_mul, Nat.abs_cast]
        have h4 : 1 ≤ |k| := Int.one_le_abs hk0
        nlinarith
    rw [geom_sum_eq hne, ← Complex.exp_nat_mul]
    have : (N : ℂ) * -(2 * Real.pi * Complex.I * d / N) = (-d : ℤ) * (2 * Real.pi * Complex.I) := by
      push_cast; field_simp
    rw [this, Complex.exp_int_mul_two_pi_mul_I]; simp

/-- the steering formula for one order -/
theorem rotF_steer {N : ℕ} {n : ℤ} (hn : |n| < N) (hp : ((N : ℤ) - 1 - n) % 2 = 0) (γ : ℝ) :
    rotF n γ = ∑ g ∈ Finset.range N, steerFn N (γ - Real.pi * g / N) * rotF n (Real.pi * g / N) := by
  have hN : (N : ℂ) ≠ 0 := by
    have : (0 : ℤ) < N := lt_of_le_of_lt (abs_nonneg n) hn
    exact_mod_cast this.ne'
  rw [abs_lt] at hn
  obtain ⟨k₀, hk₀⟩ : ∃ k : ℕ, (N : ℤ) - 1 - n = 2 * k := ⟨(((N : ℤ) - 1 - n) / 2).toNat, by omega⟩
  have hk1 : k₀ < N := by omega
  unfold steerFn
  simp only [Finset.mul_sum, Finset.sum_mul]
  rw [Finset.sum_comm]
  have key : ∀ k ∈ Finset.range N, ∑ g ∈ Finset.range N, 1 / (N : ℂ) * rotF ((N : ℤ) - 1 - 2 * k) (γ - Real.pi * g / N) *
      rotF n (Real.pi * g / N) = if k = k₀ then rotF n γ else 0 := by
    intro k hk
    rw [Finset.mem_range] at hk
    have e : ∀ g ∈ Finset.range N, 1 / (N : ℂ) * rotF ((N : ℤ) - 1 - 2 * k) (γ - Real.pi * g / N) * rotF n (Real.pi * g / N) =
        1 / (N : ℂ) * rotF ((N : ℤ) - 1 - 2 * k) γ * rotF (2 * (k - k₀)) (Real.pi * g / N) := by
      intro g _
      have e1 : rotF ((N : ℤ) - 1 - 2 * k) γ = rotF ((N : ℤ) - 1 - 2 * k) (γ - Real.pi * g / N) *
          rotF ((N : ℤ) - 1 - 2 * k) (Real.pi * g / N) := by rw [← rotF_add_angle, sub_add_cancel]
      have e2 : rotF n (Real.pi * g / N) = rotF ((N : ℤ) - 1 - 2 * k) (Real.pi * g / N) *
          rotF (2 * (k - k₀)) (Real.pi * g / N) := by
        rw [← rotF_add]; congr 1; linarith
      rw [e1, e2]; ring
    rw [Finset.sum_congr rfl e, ← Finset.mul_sum, rotF_orth (by rw [abs_lt]; constructor <;> omega)]
    by_cases hkk : k = k₀
    · have : (N : ℤ) - 1 - 2 * k = n := by subst hkk; linarith
      rw [if_pos (by omega), if_pos hkk, this]; field_simp
    · rw [if_neg (by omega), if_neg hkk, mul_zero]
  rw [Finset.sum_congr rfl key, Finset.sum_ite_eq' (Finset.range N) k₀, if_pos (Finset.mem_range.2 hk1)]

section
variable {jm : JMax} {c : Cfg} {J : ℤ} {b : Backend} {f : Px} {w : List Px} {s : Px} {W : ℤ → Arr3 ℂ} {S : Arr2 ℂ}
  {psi : Arr3 ℂ} {phi : Arr1 ℝ}

/-- **C72** the wavelets are steerable: rotated by any angle `γ`, each is a combination of its `N` rotations by `πg/N`, with
coefficients `z(γ - πg/N)` that depend on the angle only. -/
theorem C72_steerable (hv : c.Valid jm J) (hflt : b.filters jm c = .ok (psi, phi)) (γ : ℝ) (j l n : ℤ) :
    psi.v j l (c.L - 1 + n) * rotF n γ = ∑ g ∈ Finset.range c.N.toNat,
      steerFn c.N.toNat (γ - Real.pi * g / c.N) * (psi.v j l (c.L - 1 + n) * rotF n (Real.pi * g / c.N)) := by
  by_cases hp : psi.v j l (c.L - 1 + n) = 0
  · rw [hp]; simp
  · have hN := hv.hN
    have a := (filters_support hv hflt).2.2 j l n hp
    have hc : ((c.N.toNat : ℕ) : ℤ) = c.N := Int.toNat_of_nonneg (by omega)
    have hc' : ((c.N.toNat : ℕ) : ℝ) = c.N := by exact_mod_cast hc
    rw [rotF_steer (N := c.N.toNat) (by rw [hc]; exact a.2.1) (by rw [hc]; omega), Finset.mul_sum, hc']
    refine Finset.sum_congr rfl fun g _ => ?_
    ring

/-- **C72** so are the wavelet coefficients: the values of a wavelet map at any direction `γ` follow from those at the `N`
directions `πg/N` (order `n` of a map has the dependence `e^{inγ}`). -/
theorem C72_coefficients (hw : b.Works jm c J) (h : b.analysis jm c f = .ok (w, s)) (hc : b.Coeffs c J w s W S) {j : ℤ}
    (h0 : c.J_min ≤ j) (h1 : j ≤ J) (γ : ℝ) (n l m : ℤ) :
    co3 (W j) n l m * rotF (-n) γ = ∑ g ∈ Finset.range c.N.toNat,
      steerFn c.N.toNat (γ - Real.pi * g / c.N) * (co3 (W j) n l m * rotF (-n) (Real.pi * g / c.N)) := by
  by_cases hp : co3 (W j) n l m = 0
  · rw [hp]; simp
  · have hN := hw.valid.hN
    have a := C53_orders hw h hc h0 h1 hp
    have hc : ((c.N.toNat : ℕ) : ℤ) = c.N := Int.toNat_of_nonneg (by omega)
    have hc' : ((c.N.toNat : ℕ) : ℝ) = c.N := by exact_mod_cast hc
    have := a.1
    have := a.2.2.2.1
    rw [rotF_steer (N := c.N.toNat) (by rw [hc, abs_neg]; exact a.1) (by rw [hc]; omega), Finset.mul_sum, hc']
    refine Finset.sum_congr rfl fun g _ => ?_
    ring

end

section
variable {L N : ℤ} {s : Arr2 ℂ}

theorem dirDegree_facts (hN : 1 ≤ N) {l : ℤ} (hl : 1 ≤ l) :
    0 ≤ dirDegree N l ∧ dirDegree N l ≤ l ∧ dirDegree N l ≤ N - 1 ∧ (N - 1 - dirDegree N l) % 2 = 0 := by
  unfold dirDegree
  omega

/-- **C72** fewer than `N` directions do not suffice: if at some degree `l ≥ N - 1` all rotations of the directional
component are combinations of `M` of them, then `N ≤ M`. -/
theorem C72_minimal (hL : 1 ≤ L) (hN : 1 ≤ N) (hs : tiling_direction L N = .ok s) {l : ℤ} (hl0 : 1 ≤ l) (hl : N - 1 ≤ l)
    (hl1 : l < L) {M : ℕ} (θ : Fin M → ℝ) (z : Fin M → ℝ → ℂ)
    (h : ∀ γ n, |n| < L → s.v l (L - 1 + n) * rotF n γ = ∑ g, z g γ * (s.v l (L - 1 + n) * rotF n (θ g))) : N ≤ M := by
  obtain ⟨K, rfl⟩ : ∃ K : ℕ, N = K := ⟨N.toNat, by omega⟩
  have hK : (K : ℂ) ≠ 0 := by exact_mod_cast (show (K : ℤ) ≠ 0 by omega)
  have hd : dirDegree K l = K - 1 := by unfold dirDegree; omega
  have h' : ∀ γ (i : Fin K), rotF ((K : ℤ) - 1 - 2 * (i : ℕ)) γ = ∑ g, z g γ * rotF ((K : ℤ) - 1 - 2 * (i : ℕ)) (θ g) := by
    intro γ i
    have hi := i.2
    have hn : |(K : ℤ) - 1 - 2 * (i : ℕ)| ≤ K - 1 := by rw [abs_le]; omega
    have hv := C56_tiling_values hL hN (Or.inl hs) hl1 (m := (K : ℤ) - 1 - 2 * (i : ℕ)) (by omega)
    rw [if_pos ⟨hl0, by rw [hd]; exact hn, by omega⟩] at hv
    have hne : s.v l (L - 1 + ((K : ℤ) - 1 - 2 * (i : ℕ))) ≠ 0 := by
      rw [hv, mul_ne_zero_iff]
      constructor
      · split_ifs <;> simp
      · rw [Complex.ofReal_ne_zero]
        have : 0 < (dirDegree K l).toNat.choose ((dirDegree K l - ((K : ℤ) - 1 - 2 * (i : ℕ))) / 2).toNat :=
          Nat.choose_pos (by rw [hd]; omega)
        have : (0 : ℝ) < (dirDegree K l).toNat.choose ((dirDegree K l - ((K : ℤ) - 1 - 2 * (i : ℕ))) / 2).toNat := by
          exact_mod_cast this
        positivity
    refine mul_left_cancel₀ hne ?_
    rw [h γ _ (by omega), Finset.mul_sum]
    refine Finset.sum_congr rfl fun g _ => ?_
    ring
  let C : Matrix (Fin K) (Fin K) ℂ := fun i k => 1 / (K : ℂ) * rotF (-((K : ℤ) - 1 - 2 * (i : ℕ))) (Real.pi * (k : ℕ) / K)
  let Z : Matrix (Fin K) (Fin M) ℂ := fun k g => z g (Real.pi * (k : ℕ) / K)
  let B : Matrix (Fin M) (Fin K) ℂ := fun g i => rotF ((K : ℤ) - 1 - 2 * (i : ℕ)) (θ g)
  have h1 : C * (Z * B) = 1 := by
    ext i i'
    rw [Matrix.mul_apply, Matrix.one_apply]
    have e : ∀ k : Fin K, C i k * (Z * B) k i' = 1 / (K : ℂ) * rotF (2 * ((i : ℕ) - (i' : ℕ) : ℤ)) (Real.pi * (k : ℕ) / K) := by
      intro k
      rw [Matrix.mul_apply]
      show C i k * ∑ g, z g (Real.pi * (k : ℕ) / K) * rotF ((K : ℤ) - 1 - 2 * (i' : ℕ)) (θ g) = _
      rw [← h']
      show 1 / (K : ℂ) * rotF _ _ * rotF _ _ = _
      rw [mul_assoc, ← rotF_add]
      congr 2
      ring
    rw [Finset.sum_congr rfl fun k _ => e k, ← Finset.mul_sum,
      Fin.sum_univ_eq_sum_range (fun k => rotF (2 * ((i : ℕ) - (i' : ℕ) : ℤ)) (Real.pi * (k : ℕ) / K)) K,
      rotF_orth (by have := i.2; have := i'.2; rw [abs_lt]; constructor <;> omega)]
    by_cases hii : i = i'
    · subst hii; rw [if_pos (by omega), if_pos rfl]; field_simp
    · rw [if_neg (fun h0 => hii (Fin.ext (by omega))), if_neg hii, mul_zero]
  have h2 := Matrix.rank_mul_le_right C (Z * B)
  have h3 := Matrix.rank_mul_le_right Z B
  have h4 := Matrix.rank_le_card_height B
  rw [h1, Matrix.rank_one] at h2
  simp only [Fintype.card_fin] at h2 h4
  have : K ≤ M := h2.trans (h3.trans h4)
  exact_mod_cast this

/-- **C72** the directional auto-correlation: at every degree `l ≥ 1` the correlation of the directional component with its
rotation by `δ` is `cos^γ δ` (`γ` the directional degree of `C56_tiling_values`: `N - 1` for `l ≥ N`). -/
theorem C72_autocorrelation (hL : 1 ≤ L) (hN : 1 ≤ N)
    (hs : tiling_direction L N = .ok s ∨ tiling_direction_jax L N = .ok s) {l : ℤ} (hl0 : 1 ≤ l) (hl1 : l < L) (δ : ℝ) :
    ∑ n ∈ Finset.Ioo (-L) L, (conj (s.v l (L - 1 + n)) * (s.v l (L - 1 + n) * rotF n δ)) =
      ((Real.cos δ ^ (dirDegree N l).toNat : ℝ) : ℂ) := by
  obtain ⟨hp0, hpl, hpN, hpar⟩ := dirDegree_facts hN hl0
  obtain ⟨p, hp⟩ : ∃ p : ℕ, dirDegree N l = p := ⟨_, (Int.toNat_of_nonneg hp0).symm⟩
  have hval : ∀ n ∈ Finset.Ioo (-L) L, conj (s.v l (L - 1 + n)) * (s.v l (L - 1 + n) * rotF n δ) =
      if |n| ≤ p ∧ (p - n) % 2 = 0 then ((p.choose ((p - n) / 2).toNat : ℝ) : ℂ) / 2 ^ p * rotF n δ else 0 := by
    intro n hn
    rw [Finset.mem_Ioo] at hn
    rw [C56_tiling_values hL hN hs hl1 (m := n) (by rw [abs_lt]; exact hn), hp]
    rw [hp] at hpar
    by_cases hc : |n| ≤ p ∧ (p - n) % 2 = 0
    · rw [if_pos ⟨hl0, hc.1, by omega⟩, if_pos hc, Int.toNat_natCast, ← mul_assoc, Complex.conj_mul', norm_mul]
      have e1 : ‖(if N % 2 = 1 then (1 : ℂ) else Complex.I)‖ = 1 := by split_ifs <;> simp
      rw [e1, one_mul, Complex.norm_real, Real.norm_eq_abs, ← Complex.ofReal_pow, sq_abs, Real.sq_sqrt (by positivity)]
      push_cast
      ring
    · rw [if_neg hc, if_neg (by rintro ⟨-, h1, h2⟩; exact hc ⟨h1, by omega⟩)]; simp
  rw [Finset.sum_congr rfl hval, ← Finset.sum_filter, hp, Int.toNat_natCast]
  have hbij : ∑ n ∈ (Finset.Ioo (-L) L).filter (fun n : ℤ => |n| ≤ (p : ℤ) ∧ ((p : ℤ) - n) % 2 = 0),
      ((p.choose (((p : ℤ) - n) / 2).toNat : ℝ) : ℂ) / 2 ^ p * rotF n δ =
      ∑ k ∈ Finset.range (p + 1), ((p.choose k : ℝ) : ℂ) / 2 ^ p * rotF (p - 2 * k) δ := by
    symm
    refine Finset.sum_bij (fun k _ => (p : ℤ) - 2 * k) (fun k hk => ?_) (fun k _ k' _ h => by omega) (fun n hn => ?_)
      (fun k _ => ?_)
    · rw [Finset.mem_range] at hk
      rw [Finset.mem_filter, Finset.mem_Ioo, abs_le]
      omega
    · rw [Finset.mem_filter, abs_le] at hn
      exact ⟨(((p : ℤ) - n) / 2).toNat, Finset.mem_range.2 (by omega), by omega⟩
    · have : (((p : ℤ) - ((p : ℤ) - 2 * k)) / 2).toNat = k := by omega
      rw [this]
  rw [hbij, Complex.ofReal_pow, Complex.ofReal_cos, Complex.cos, div_pow, add_pow, Finset.sum_div]
  refine Finset.sum_congr rfl fun k hk => ?_
  rw [Finset.mem_range] at hk
  rw [← Complex.exp_nat_mul, ← Complex.exp_nat_mul, ← Complex.exp_add]
  have : rotF ((p : ℤ) - 2 * k) δ = Complex.exp ((k : ℕ) * (δ * Complex.I) + ((p - k : ℕ) : ℂ) * (-(δ : ℂ) * Complex.I)) := by
    unfold rotF
    congr 1
    rw [Nat.cast_sub (by omega)]
    push_cast
    ring
  rw [this]
  push_cast
  ring

/-- **C72** the auto-correlation of the wavelets themselves: rotating by `δ` multiplies the energy of degree `l` of each
wavelet by `cos^γ δ`. -/
theorem C72_wavelet_autocorrelation {J J_min : ℤ} {lam : ℝ} (hL : 1 ≤ L) (hN : 1 ≤ N) (hlam : 1 < lam)
    (hJ : j_max L lam = .ok J) {spin spin0 : ℤ} {psi : Arr3 ℂ} {phi : Arr1 ℝ}
    (h : filters_directional j_max L N J_min lam spin spin0 = .ok (psi, phi) ∨
      filters_directional_vectorised j_max L N J_min lam spin spin0 = .ok (psi, phi) ∨
      filters_directional_jax j_max L N J_min lam spin spin0 = .ok (psi, phi)) {l : ℤ} (hl0 : 1 ≤ l) (hl1 : l < L) (j : ℤ)
    (δ : ℝ) :
    ∑ n ∈ Finset.Ioo (-L) L, (conj (psi.v j l (L - 1 + n)) * (psi.v j l (L - 1 + n) * rotF n δ)) =
      ((Real.cos δ ^ (dirDegree N l).toNat * ∑ n ∈ Finset.Ioo (-L) L, ‖psi.v j l (L - 1 + n)‖ ^ 2 : ℝ) : ℂ) := by
  obtain ⟨s, hs⟩ : ∃ s, tiling_direction L N = .ok s := ⟨_, tiling_direction_ok hL hN⟩
  have hprod : ∃ a : ℝ, ∀ k, psi.v j l k = (a : ℂ) * s.v l k := by
    have hT := TopScale.of_j_max hL hlam hJ
    have hb : DirBuilt j_max L N J_min lam spin spin0 psi phi := h
    obtain ⟨h0, h1, -, -⟩ := dirBuilt_elim hT hN hb
    obtain ⟨p, hp, -⟩ := filters_axisym_ok hT h0 h1
    have hpv := filters_axisym_vectorised_ok hT h0 h1
    have hpj := (filters_axisym_jax_eq hT J_min).trans hpv
    by_cases hlt : l < max |spin| |spin0|
    · exact ⟨0, fun k => by rw [(C20_below_spin hL hN hlam hb).1 j l k hlt]; simp⟩
    · rcases h with h | h | h
      · obtain ⟨sn, -, -, hv⟩ := (C57_directional_values hL hN hlam hJ hs (Or.inl ⟨h, hp⟩) hl1).2 (by omega)
        exact ⟨_, hv j⟩
      · obtain ⟨sn, -, -, hv⟩ := (C57_directional_values hL hN hlam hJ hs (Or.inr (Or.inl ⟨h, hpv⟩)) hl1).2 (by omega)
        exact ⟨_, hv j⟩
      · obtain ⟨sn, -, -, hv⟩ := (C57_directional_values hL hN hlam hJ hs (Or.inr (Or.inr ⟨h, hpj⟩)) hl1).2 (by omega)
        exact ⟨_, hv j⟩
  obtain ⟨a, ha⟩ := hprod
  have h1 := C72_autocorrelation hL hN (Or.inl hs) hl0 hl1 δ
  have h0 := C72_autocorrelation hL hN (Or.inl hs) hl0 hl1 0
  have e : ((∑ n ∈ Finset.Ioo (-L) L, ‖psi.v j l (L - 1 + n)‖ ^ 2 : ℝ) : ℂ) = (a : ℂ) ^ 2 := by
    simp only [Real.cos_zero, one_pow, Complex.ofReal_one] at h0
    rw [← mul_one ((a : ℂ) ^ 2), ← h0, Finset.mul_sum, Complex.ofReal_sum]
    refine Finset.sum_congr rfl fun n _ => ?_
    rw [Complex.ofReal_pow, ← Complex.conj_mul', ha]
    simp only [map_mul, Complex.conj_ofReal, rotF, Complex.ofReal_zero, mul_zero, zero_mul, neg_zero, Complex.exp_zero]
    ring
  rw [Complex.ofReal_mul, e, ← h1, Finset.sum_mul]
  refine Finset.sum_congr rfl fun n _ => ?_
  rw [ha]
  simp only [map_mul, Complex.conj_ofReal]
  ring

/-- with `N = 3`, three directions suffice at degree 5 and two do not; the auto-correlation is `cos² δ` -/
example : ∃ s, tiling_direction 8 3 = .ok s ∧ s.v 5 (7 + 2) ≠ 0 ∧
    (∀ γ n, |n| < 8 → s.v 5 (8 - 1 + n) * rotF n γ = ∑ g : Fin 3, steerFn 3 (γ - Real.pi * (g : ℕ) / 3) *
      (s.v 5 (8 - 1 + n) * rotF n (Real.pi * (g : ℕ) / 3))) ∧
    (∀ (θ : Fin 2 → ℝ) (z : Fin 2 → ℝ → ℂ), ∃ γ n, |n| < 8 ∧
      s.v 5 (8 - 1 + n) * rotF n γ ≠ ∑ g, z g γ * (s.v 5 (8 - 1 + n) * rotF n (θ g))) ∧
    ∀ δ, ∑ n ∈ Finset.Ioo (-8) 8, (conj (s.v 5 (8 - 1 + n)) * (s.v 5 (8 - 1 + n) * rotF n δ)) = ((Real.cos δ ^ 2 : ℝ) : ℂ) := by
  obtain ⟨s, hs⟩ : ∃ s, tiling_direction 8 3 = .ok s := ⟨_, tiling_direction_ok (by norm_num) (by norm_num)⟩
  have hd : dirDegree 3 5 = 2 := by decide
  refine ⟨s, hs, ?_, fun γ n hn => ?_, fun θ z => ?_, fun δ => ?_⟩
  · have := C56_tiling_values (by norm_num) (by norm_num) (Or.inl hs) (l := 5) (m := 2) (by norm_num) (by norm_num)
    rw [hd] at this
    norm_num at this
    norm_num [this]
  · have hv := C56_tiling_values (by norm_num) (by norm_num) (Or.inl hs) (l := 5) (m := n) (by norm_num) hn
    rw [hd] at hv
    by_cases hc : |n| ≤ 2 ∧ ((3 : ℤ) - 1 - n) % 2 = 0
    · rw [rotF_steer (N := 3) (n := n) (by push_cast; omega) (by push_cast; omega) γ, Finset.mul_sum,
        Fin.sum_univ_eq_sum_range (fun g => steerFn 3 (γ - Real.pi * (g : ℕ) / 3) *
          (s.v 5 (8 - 1 + n) * rotF n (Real.pi * (g : ℕ) / 3))) 3]
      refine Finset.sum_congr rfl fun g _ => ?_
      push_cast
      ring
    · rw [if_neg (by tauto)] at hv
      rw [hv]; simp
  · by_contra hcon
    push Not at hcon
    have := C72_minimal (by norm_num) (by norm_num) hs (l := 5) (by norm_num) (by norm_num) (by norm_num) θ z hcon
    norm_num at this
  · have := C72_autocorrelation (by norm_num) (by norm_num) (Or.inl hs) (l := 5) (by norm_num) (by norm_num) δ
    rw [hd] at this
    exact this

end

/-- a run with `N = 2` and a wavelet coefficient that is not zero: its value in direction `π/4` from those in two directions -/
example (b : Backend) (hb : Toy.IsToy b) : ∃ (f : Px) (w : List Px) (s : Px) (W : ℤ → Arr3 ℂ) (S : Arr2 ℂ),
    b.analysis j_max (exCfg true 0) f = .ok (w, s) ∧ b.Coeffs (exCfg true 0) 2 w s W S ∧
    ∀ j n, 0 ≤ j → j ≤ 2 → co3 (W j) n 1 0 * rotF (-n) (Real.pi / 4) = ∑ g ∈ Finset.range 2,
      steerFn 2 (Real.pi / 4 - Real.pi * g / 2) * (co3 (W j) n 1 0 * rotF (-n) (Real.pi * g / 2)) := by
  obtain ⟨f, w, s, W, S, hf, h, hc⟩ := exRun hb true
  refine ⟨f, w, s, W, S, h, hc, fun j n h0 h1 => ?_⟩
  have := C72_coefficients (exCfg_works hb true 0) h hc h0 h1 (Real.pi / 4) n 1 0
  simpa [exCfg] using this

end S2wav
