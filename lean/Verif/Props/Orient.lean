import Verif.Props.Rotate
import Verif.Props.Steer

/-! # How the wavelet maps depend on the orientation (C94) -/

namespace S2wav
open Classical Sphere

variable {jm : JMax} {c : Cfg} {J : ℤ} {b : Backend} {f s : Px} {w : List Px} {psi : Arr3 ℂ} {phi : Arr1 ℝ}

/-- a function of the Euler angles that can be steered with `N` orientations: its value at any orientation follows from those at
`πg/N`, and turning by `π` multiplies it by `(-1)^(N - 1)` -/
structure Steerable (N : ℕ) (T : ℝ → ℝ → ℝ → ℂ) : Prop where
  steer : ∀ α β γ, T α β γ = ∑ g ∈ Finset.range N, steerFn N (γ - Real.pi * g / N) * T α β (Real.pi * g / N)
  turn : ∀ α β γ, T α β (γ + Real.pi) = (-1) ^ (N + 1) * T α β γ

/-- the dependence of the directional convolution on the orientation -/
theorem directional_orders (L : ℤ) (a psi : ℤ → ℤ → ℂ) (α β γ : ℝ) :
    directional L a psi α β γ = ∑ l ∈ Finset.Ico 0 L, ∑ m ∈ Finset.Icc (-l) l, ∑ n ∈ Finset.Icc (-l) l,
      a l m * (starRingEnd ℂ) (psi l n * wD l m n α β 0) * rotF (-n) γ := by
  unfold directional
  refine Finset.sum_congr rfl fun l _ => Finset.sum_congr rfl fun m _ => ?_
  rw [map_sum, Finset.mul_sum]
  refine Finset.sum_congr rfl fun n _ => ?_
  have e : rotF (-n) γ = (starRingEnd ℂ) (cis (-(n * γ))) := by
    rw [conj_cis]
    unfold rotF cis
    congr 1; push_cast; ring
  rw [e]
  unfold wD
  simp only [mul_zero, neg_zero, cis_zero, mul_one, map_mul]
  ring

theorem rotF_pi (n : ℤ) : rotF n Real.pi = (-1) ^ n := by
  unfold rotF
  rw [← Complex.exp_pi_mul_I, ← Complex.exp_int_mul, show (-(n * (Real.pi : ℂ) * Complex.I)) = -(n * (Real.pi * Complex.I)) by ring, Complex.exp_neg,
    Complex.exp_int_mul, Complex.exp_pi_mul_I, ← inv_zpow]
  norm_num

theorem directional_steerable {N : ℕ} {L : ℤ} (a : ℤ → ℤ → ℂ) {psi : ℤ → ℤ → ℂ}
    (h : ∀ l n, psi l n ≠ 0 → |n| < N ∧ ((N : ℤ) - 1 - n) % 2 = 0) : Steerable N (directional L a psi) := by
  constructor
  · intro α β γ
    simp only [directional_orders, Finset.mul_sum]
    symm
    rw [Finset.sum_comm]
    refine Finset.sum_congr rfl fun l _ => ?_
    rw [Finset.sum_comm]
    refine Finset.sum_congr rfl fun m _ => ?_
    rw [Finset.sum_comm]
    refine Finset.sum_congr rfl fun n _ => ?_
    symm
    by_cases hp : psi l n = 0
    · simp [hp]
    · obtain ⟨h1, h2⟩ := h l n hp
      rw [rotF_steer (N := N) (n := -n) (by rwa [abs_neg]) (by omega) γ, Finset.mul_sum]
      exact Finset.sum_congr rfl fun g _ => by ring
  · intro α β γ
    simp only [directional_orders, Finset.mul_sum]
    refine Finset.sum_congr rfl fun l _ => Finset.sum_congr rfl fun m _ => Finset.sum_congr rfl fun n _ => ?_
    by_cases hp : psi l n = 0
    · simp [hp]
    · obtain ⟨h1, h2⟩ := h l n hp
      have e : rotF (-n) Real.pi = (-1) ^ (N + 1) := by
        rw [rotF_pi]
        rcases Int.even_or_odd n with hn | hn
        · rw [hn.neg.neg_one_zpow, Even.neg_one_pow]
          rw [← Int.even_coe_nat, Int.even_iff]; rw [Int.even_iff] at hn; push_cast; omega
        · rw [hn.neg.neg_one_zpow, Odd.neg_one_pow]
          rw [← Int.odd_coe_nat, Int.odd_iff]; rw [Int.odd_iff] at hn; push_cast; omega
      rw [rotF_add_angle, e]; ring

/-- a function that can be steered is determined by its values at the `N` orientations -/
theorem Steerable.ext {N : ℕ} {T T' : ℝ → ℝ → ℝ → ℂ} (h : Steerable N T) (h' : Steerable N T') {α β : ℝ}
    (e : ∀ g < N, T α β (Real.pi * g / N) = T' α β (Real.pi * g / N)) (γ : ℝ) : T α β γ = T' α β γ := by
  rw [h.steer, h'.steer]
  exact Finset.sum_congr rfl fun g hg => by rw [e g (Finset.mem_range.1 hg)]

/-- with one orientation the value does not depend on it -/
theorem Steerable.one {T : ℝ → ℝ → ℝ → ℂ} (h : Steerable 1 T) (α β γ : ℝ) : T α β γ = T α β 0 := by
  rw [h.steer]
  simp [steerFn, rotF]

/-- with an even number of orientations the values at opposite ones cancel -/
theorem Steerable.cancel {N : ℕ} {T : ℝ → ℝ → ℝ → ℂ} (h : Steerable N T) (hN : Even N) (α β γ : ℝ) : T α β (γ + Real.pi) = -T α β γ := by
  rw [h.turn, hN.add_one.neg_one_pow]; ring

/-- **C94** the wavelet map of scale `j` holds the samples of a function that can be steered with `N_j` orientations, and is
determined by them (`Steerable.ext`), whatever the signal -/
theorem C94_maps (hb : IsSphere b) (hv : c.Valid jm J) (hs : SamplingOk b c) {a : ℤ → ℤ → ℂ}
    (hr : c.reality = true → c.spin = 0 ∧ HermF a) {g : Grid} (hg : gridOf c.sampling c.L = .ok g)
    (hf : Samples g (series (spinOf b c) c.L a) f) :
    ∃ w s, b.analysis jm c f = .ok (w, s) ∧ ∀ j, c.J_min ≤ j → j ≤ J → ∃ p gj T, listGet w (j - c.J_min) = .ok p ∧
      gridOf c.sampling (c.Lj b.mr j) = .ok gj ∧ Samples3 gj (c.Nj b.mr j) T p ∧ Steerable (c.Nj b.mr j).toNat T := by
  obtain ⟨psi, phi, hflt⟩ := filters_exist hv b
  obtain ⟨w, s, h1, -, h2, -⟩ := C82_maps hb hv hs hflt hr hg hf
  refine ⟨w, s, h1, fun j h3 h4 => ?_⟩
  obtain ⟨p, gj, a1, a2, a3⟩ := h2 j h3 h4
  have hFl := filters_ok hv hflt b.mr
  refine ⟨p, gj, _, a1, a2, a3, directional_steerable a fun l n hn => ?_⟩
  have h5 := hFl.wav j l n hn
  have h6 : ((c.Nj b.mr j).toNat : ℤ) = c.Nj b.mr j := Int.toNat_of_nonneg (by have := abs_nonneg n; omega)
  rw [h6]
  exact ⟨h5.2.2.1, h5.2.2.2.1⟩

/-- **C94** on the pixels: at each position, the discrete Fourier transform of a wavelet map over its `2N_j - 1` orientations has
only the `N_j` frequencies `N_j - 1, N_j - 3, …, -(N_j - 1)` -/
theorem C94_frequencies (hb : IsSphere b) (hv : c.Valid jm J) (hs : SamplingOk b c) {a : ℤ → ℤ → ℂ}
    (hr : c.reality = true → c.spin = 0 ∧ HermF a) {g : Grid} (hg : gridOf c.sampling c.L = .ok g)
    (hf : Samples g (series (spinOf b c) c.L a) f) (h : b.analysis jm c f = .ok (w, s)) {j : ℤ} (h0 : c.J_min ≤ j) (h1 : j ≤ J) :
    ∃ p gj, listGet w (j - c.J_min) = .ok p ∧ gridOf c.sampling (c.Lj b.mr j) = .ok gj ∧
      ∀ t ∈ Finset.Ico 0 gj.nθ, ∀ x ∈ Finset.Ico 0 gj.nφ, ∀ n : ℤ, |n| < c.Nj b.mr j → (c.Nj b.mr j - 1 - n) % 2 ≠ 0 →
        ∑ y ∈ Finset.Ico 0 (2 * c.Nj b.mr j - 1), p.v [y, t, x] * rotF n (node (2 * c.Nj b.mr j - 1) y) = 0 := by
  obtain ⟨psi, phi, hflt⟩ := filters_exist hv b
  obtain ⟨w', s', h2, -, h3, -⟩ := C82_maps hb hv hs hflt hr hg hf
  rw [h] at h2
  cases h2
  obtain ⟨p, gj, a1, a2, a3⟩ := h3 j h0 h1
  have hFl := filters_ok hv hflt b.mr
  refine ⟨p, gj, a1, a2, fun t ht x hx n hn hpar => ?_⟩
  rw [Finset.sum_congr rfl fun y hy => by rw [a3.2 y hy t ht x hx, directional_orders]]
  simp only [Finset.sum_mul]
  rw [Finset.sum_comm]
  refine Finset.sum_eq_zero fun l _ => ?_
  rw [Finset.sum_comm]
  refine Finset.sum_eq_zero fun m _ => ?_
  rw [Finset.sum_comm]
  refine Finset.sum_eq_zero fun n' _ => ?_
  by_cases hp : psi.v j l (c.L - 1 + n') = 0
  · simp [hp]
  · have h5 := hFl.wav j l n' hp
    have e : ∀ y, rotF (-n') (node (2 * c.Nj b.mr j - 1) y) * rotF n (node (2 * c.Nj b.mr j - 1) y) =
        cis ((n' - n : ℤ) * node (2 * c.Nj b.mr j - 1) y) := by
      intro y
      rw [← rotF_add]
      unfold rotF cis
      congr 1; push_cast; ring
    simp only [mul_assoc, e]
    simp only [← mul_assoc]
    have h6 := abs_lt.1 h5.2.2.1
    have h7 := abs_lt.1 hn
    rw [← Finset.mul_sum, fourier_sum (by rw [abs_lt]; omega), if_neg (by omega), mul_zero]

/-- **C94** with an even number of orientations the mean of a wavelet map over the orientations is zero at every position -/
theorem C94_mean (hb : IsSphere b) (hv : c.Valid jm J) (hs : SamplingOk b c) {a : ℤ → ℤ → ℂ}
    (hr : c.reality = true → c.spin = 0 ∧ HermF a) {g : Grid} (hg : gridOf c.sampling c.L = .ok g)
    (hf : Samples g (series (spinOf b c) c.L a) f) (h : b.analysis jm c f = .ok (w, s)) {j : ℤ} (h0 : c.J_min ≤ j) (h1 : j ≤ J)
    (hN : c.Nj b.mr j % 2 = 0) :
    ∃ p gj, listGet w (j - c.J_min) = .ok p ∧ gridOf c.sampling (c.Lj b.mr j) = .ok gj ∧
      ∀ t ∈ Finset.Ico 0 gj.nθ, ∀ x ∈ Finset.Ico 0 gj.nφ, ∑ y ∈ Finset.Ico 0 (2 * c.Nj b.mr j - 1), p.v [y, t, x] = 0 := by
  obtain ⟨p, gj, a1, a2, a3⟩ := C94_frequencies hb hv hs hr hg hf h h0 h1
  refine ⟨p, gj, a1, a2, fun t ht x hx => ?_⟩
  have h2 := hv.Lj_pos b.mr j
  have := a3 t ht x hx 0 (by rw [abs_zero]; omega) (by omega)
  simpa [rotF] using this

/-- the maps of the example have two orientations at scale 0, where the signal is: three planes whose sum is zero -/
example (hb : IsSphere b) : ∃ w s p gj, b.analysis j_max (exCfg false 0) exImg = .ok (w, s) ∧
    listGet w 0 = .ok p ∧ gridOf "mw" ((exCfg false 0).Lj b.mr 0) = .ok gj ∧
    ∀ t ∈ Finset.Ico 0 gj.nθ, ∀ x ∈ Finset.Ico 0 gj.nφ, p.v [0, t, x] + p.v [1, t, x] + p.v [2, t, x] = 0 := by
  obtain ⟨g, hg, hf⟩ := exGrid
  have e : spinOf b (exCfg false 0) = 0 := spinOf_zero rfl
  obtain ⟨w, s, h1, -⟩ := C94_maps (a := exSig) hb (exCfg_valid false 0) (exSphere_ok b false) (by simp [exCfg]) hg (by rw [e]; exact hf)
  have hN : (exCfg false 0).Nj b.mr 0 = 2 := by
    simp only [Cfg.Nj, exCfg, LN_j, wav_j_bandlimit]
    cases b.mr <;> norm_num
  obtain ⟨p, gj, a1, a2, a3⟩ := C94_mean (a := exSig) hb (exCfg_valid false 0) (exSphere_ok b false) (by simp [exCfg]) hg (by rw [e]; exact hf) h1 (j := 0)
    (by norm_num [exCfg]) (by norm_num) (by rw [hN]; rfl)
  refine ⟨w, s, p, gj, h1, a1, a2, fun t ht x hx => ?_⟩
  have := a3 t ht x hx
  rw [hN] at this
  have e2 : Finset.Ico (0 : ℤ) (2 * 2 - 1) = {0, 1, 2} := by decide
  rw [e2] at this
  rw [← this]; simp [add_assoc]

end S2wav
