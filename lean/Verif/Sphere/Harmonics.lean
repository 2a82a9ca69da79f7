import Verif.Sphere.Wigner
import Mathlib.Analysis.SpecialFunctions.Complex.Log
import Mathlib.Algebra.Field.GeomSum

/-! # Spherical harmonics, Wigner functions and their recovery from samples

`₍s₎Y_lm` and `D^l_mn` with the usual conventions, series of both, and the recovery of the coefficients of a series from
its values on a grid. -/

namespace S2wav.Sphere

/-- `e^{i x}` -/
noncomputable def cis (x : ℝ) : ℂ := Complex.exp (x * Complex.I)

theorem cis_add (x y : ℝ) : cis (x + y) = cis x * cis y := by
  unfold cis; rw [← Complex.exp_add]; congr 1; push_cast; ring

theorem conj_cis (x : ℝ) : (starRingEnd ℂ) (cis x) = cis (-x) := by
  unfold cis
  rw [← Complex.exp_conj, map_mul, Complex.conj_ofReal, Complex.conj_I, Complex.ofReal_neg]; congr 1; ring

theorem cis_zero : cis 0 = 1 := by simp [cis]

/-- the spin spherical harmonic of spin `s`, degree `l`, order `m` -/
noncomputable def sY (s l m : ℤ) (θ φ : ℝ) : ℂ :=
  (((-1) ^ s * Real.sqrt ((2 * l + 1) / (4 * Real.pi)) * wignerd l m (-s) θ : ℝ) : ℂ) * cis (m * φ)

/-- the Wigner D-function of degree `l`, orders `m`, `n` -/
noncomputable def wD (l m n : ℤ) (α β γ : ℝ) : ℂ := cis (-(m * α)) * ((wignerd l m n β : ℝ) : ℂ) * cis (-(n * γ))

/-- the signal of spin `s` with harmonic coefficients `a` -/
noncomputable def series (s L : ℤ) (a : ℤ → ℤ → ℂ) (θ φ : ℝ) : ℂ :=
  ∑ l ∈ Finset.Ico |s| L, ∑ m ∈ Finset.Icc (-l) l, a l m * sY s l m θ φ

/-- the function on the rotation group with Wigner coefficients `a` -/
noncomputable def wseries (L N : ℤ) (a : ℤ → ℤ → ℤ → ℂ) (α β γ : ℝ) : ℂ :=
  ∑ n ∈ Finset.Ioo (-N) N, ∑ l ∈ Finset.Ico |n| L, ∑ m ∈ Finset.Icc (-l) l,
    (((2 * l + 1) / (8 * Real.pi ^ 2) : ℝ) : ℂ) * a n l m * (starRingEnd ℂ) (wD l m n α β γ)

/-- longitude number `x` of `K` -/
noncomputable def node (K x : ℤ) : ℝ := 2 * Real.pi * x / K

/-! ## Fourier sums -/

theorem sum_Ico_zero {M : Type*} [AddCommMonoid M] (K : ℤ) (f : ℤ → M) :
    ∑ x ∈ Finset.Ico 0 K, f x = ∑ x ∈ Finset.range K.toNat, f x := by
  refine Finset.sum_bij' (fun x _ => x.toNat) (fun x _ => (x : ℤ)) ?_ ?_ ?_ ?_ ?_
  · intro x hx; rw [Finset.mem_Ico] at hx; rw [Finset.mem_range]; omega
  · intro x hx; rw [Finset.mem_range] at hx; rw [Finset.mem_Ico]; omega
  · intro x hx; rw [Finset.mem_Ico] at hx; omega
  · intro x hx; omega
  · intro x hx; rw [Finset.mem_Ico] at hx; rw [Int.toNat_of_nonneg hx.1]

theorem fourier_sum {K r : ℤ} (hr : |r| < K) :
    ∑ x ∈ Finset.Ico 0 K, cis (r * node K x) = if r = 0 then (K : ℂ) else 0 := by
  have hK : 0 < K := (abs_nonneg r).trans_lt hr
  split_ifs with h
  · subst h
    simp only [Int.cast_zero, zero_mul, cis_zero, Finset.sum_const, Int.card_Ico, sub_zero, nsmul_eq_mul, mul_one]
    have : ((K.toNat : ℤ) : ℂ) = (K : ℂ) := by rw [Int.toNat_of_nonneg hK.le]
    exact_mod_cast this
  · set z := cis (r * node K 1) with hz
    have hKR : (K : ℝ) ≠ 0 := by exact_mod_cast hK.ne'
    have hKC : (K : ℂ) ≠ 0 := by exact_mod_cast hK.ne'
    have hpow : ∀ x : ℕ, cis (r * node K (x : ℤ)) = z ^ x := by
      intro x
      rw [hz, cis, cis, ← Complex.exp_nat_mul]
      congr 1
      unfold node
      push_cast; ring
    have hz1 : z ≠ 1 := by
      intro h1
      rw [hz, cis, Complex.exp_eq_one_iff] at h1
      obtain ⟨n, hn⟩ := h1
      have hpi : (Real.pi : ℂ) ≠ 0 := by exact_mod_cast Real.pi_ne_zero
      unfold node at hn
      push_cast at hn
      have h2 : (r : ℂ) = n * K := by
        field_simp at hn
        linear_combination hn
      have h3 : r = n * K := by exact_mod_cast h2
      have hn0 : n ≠ 0 := by rintro rfl; apply h; simpa using h3
      have : K ≤ |r| := by
        rw [h3, abs_mul, abs_of_pos hK]
        have := Int.one_le_abs hn0
        nlinarith
      omega
    have hzK : z ^ K.toNat = 1 := by
      rw [← hpow, Int.toNat_of_nonneg hK.le, cis, Complex.exp_eq_one_iff]
      refine ⟨r, ?_⟩
      unfold node
      push_cast
      field_simp
    rw [sum_Ico_zero]
    simp only [hpow]
    rw [geom_sum_eq hz1, hzK, sub_self, zero_div]

/-- Fourier coefficient of order `m` of `K` samples -/
noncomputable def fcoef (K : ℤ) (f : ℤ → ℂ) (m : ℤ) : ℂ := (K : ℂ)⁻¹ * ∑ x ∈ Finset.Ico 0 K, f x * cis (-(m * node K x))

theorem fcoef_eq {K L m : ℤ} (hK : 2 * L - 1 ≤ K) {f : ℤ → ℂ} {A : ℤ → ℂ} (hm : |m| < L)
    (hf : ∀ x ∈ Finset.Ico 0 K, f x = ∑ m ∈ Finset.Ioo (-L) L, A m * cis (m * node K x)) : fcoef K f m = A m := by
  have hm' := abs_lt.1 hm
  have hKC : (K : ℂ) ≠ 0 := by exact_mod_cast (show K ≠ 0 by omega)
  unfold fcoef
  have e : ∑ x ∈ Finset.Ico 0 K, f x * cis (-(m * node K x)) =
      ∑ m' ∈ Finset.Ioo (-L) L, A m' * ∑ x ∈ Finset.Ico 0 K, cis ((m' - m : ℤ) * node K x) := by
    rw [Finset.sum_congr rfl fun x hx => by rw [hf x hx, Finset.sum_mul]]
    rw [Finset.sum_comm]
    refine Finset.sum_congr rfl fun m' _ => ?_
    rw [Finset.mul_sum]
    refine Finset.sum_congr rfl fun x _ => ?_
    rw [mul_assoc, ← cis_add]
    congr 2
    push_cast; ring
  rw [e, Finset.sum_eq_single m]
  · rw [fourier_sum (by rw [sub_self, abs_zero]; omega), if_pos (by ring)]
    field_simp
  · intro m' hm'' hne
    rw [Finset.mem_Ioo] at hm''
    rw [fourier_sum (by rw [abs_lt]; omega), if_neg (by omega), mul_zero]
  · intro h; exact absurd (Finset.mem_Ioo.2 ⟨by omega, by omega⟩) h

/-! ## Recovery of one order `n` -/

open Classical in
/-- quadrature weights for the functions `d^l_mn` on a grid -/
noncomputable def weight (g : Grid) (L m n l t : ℤ) : ℝ :=
  if h : ∃ q : ℤ → ℤ → ℝ, ∀ l ∈ Finset.Ico (max |m| |n|) L, ∀ l' ∈ Finset.Ico (max |m| |n|) L,
      ∑ t ∈ Finset.Ico 0 g.nθ, q l t * wignerd l' m n (g.θ t) = if l = l' then 1 else 0
  then h.choose l t else 0

theorem weight_dual {g : Grid} {L m n l l' : ℤ} (hg : g.Enough L) (hm : |m| < L) (hn : |n| < L)
    (hl : l ∈ Finset.Ico (max |m| |n|) L) (hl' : l' ∈ Finset.Ico (max |m| |n|) L) :
    ∑ t ∈ Finset.Ico 0 g.nθ, weight g L m n l t * wignerd l' m n (g.θ t) = if l = l' then 1 else 0 := by
  have h := exists_dual hg hm hn
  unfold weight
  simp only [dif_pos h]
  exact h.choose_spec l hl l' hl'

/-- the coefficient of degree `l` and order `m`, from samples `f t x` -/
noncomputable def recover (g : Grid) (L n : ℤ) (f : ℤ → ℤ → ℂ) (l m : ℤ) : ℂ :=
  ∑ t ∈ Finset.Ico 0 g.nθ, (weight g L m n l t : ℂ) * fcoef g.nφ (f t) m

theorem recover_eq {g : Grid} {L n l m : ℤ} (hg : g.Enough L) (hl : max |m| |n| ≤ l) (hL : l < L) {f : ℤ → ℤ → ℂ} {a : ℤ → ℤ → ℂ}
    (hf : ∀ t ∈ Finset.Ico 0 g.nθ, ∀ x ∈ Finset.Ico 0 g.nφ, f t x = ∑ l ∈ Finset.Ico |n| L, ∑ m ∈ Finset.Icc (-l) l,
      a l m * ((wignerd l m n (g.θ t) : ℝ) : ℂ) * cis (m * node g.nφ x)) : recover g L n f l m = a l m := by
  have hm : |m| < L := ((le_max_left _ _).trans hl).trans_lt hL
  have hn : |n| < L := ((le_max_right _ _).trans hl).trans_lt hL
  have h1 : ∀ t ∈ Finset.Ico 0 g.nθ, fcoef g.nφ (f t) m =
      ∑ l ∈ Finset.Ico (max |m| |n|) L, a l m * ((wignerd l m n (g.θ t) : ℝ) : ℂ) := by
    intro t ht
    refine fcoef_eq (A := fun m => ∑ l ∈ Finset.Ico (max |m| |n|) L, a l m * ((wignerd l m n (g.θ t) : ℝ) : ℂ)) hg.phi hm
      fun x hx => ?_
    rw [hf t ht x hx]
    simp only [Finset.sum_mul]
    refine Finset.sum_comm' fun l m => ?_
    simp only [Finset.mem_Ico, Finset.mem_Icc, Finset.mem_Ioo, max_le_iff]
    rw [abs_le (a := m)]
    have := abs_nonneg n
    omega
  unfold recover
  rw [Finset.sum_congr rfl fun t ht => by rw [h1 t ht, Finset.mul_sum]]
  rw [Finset.sum_comm, Finset.sum_eq_single l]
  · have := weight_dual hg hm hn (Finset.mem_Ico.2 ⟨hl, hL⟩) (Finset.mem_Ico.2 ⟨hl, hL⟩)
    rw [if_pos rfl] at this
    rw [Finset.sum_congr rfl fun t _ => show (weight g L m n l t : ℂ) * (a l m * ((wignerd l m n (g.θ t) : ℝ) : ℂ)) =
      a l m * ((weight g L m n l t * wignerd l m n (g.θ t) : ℝ) : ℂ) by push_cast; ring]
    rw [← Finset.mul_sum, ← Complex.ofReal_sum, this]; simp
  · intro l' hl' hne
    have := weight_dual hg hm hn (Finset.mem_Ico.2 ⟨hl, hL⟩) hl'
    rw [if_neg (Ne.symm hne)] at this
    rw [Finset.sum_congr rfl fun t _ => show (weight g L m n l t : ℂ) * (a l' m * ((wignerd l' m n (g.θ t) : ℝ) : ℂ)) =
      a l' m * ((weight g L m n l t * wignerd l' m n (g.θ t) : ℝ) : ℂ) by push_cast; ring]
    rw [← Finset.mul_sum, ← Complex.ofReal_sum, this]; simp
  · intro h; exact absurd (Finset.mem_Ico.2 ⟨hl, hL⟩) h

/-- the harmonic coefficients of a sampled signal of spin `s` -/
noncomputable def scoef (g : Grid) (s L : ℤ) (f : ℤ → ℤ → ℂ) (l m : ℤ) : ℂ :=
  (((-1) ^ s * (Real.sqrt ((2 * l + 1) / (4 * Real.pi)))⁻¹ : ℝ) : ℂ) * recover g L (-s) f l m

theorem sqrt_deg_pos {l : ℤ} (hl : 0 ≤ l) : 0 < Real.sqrt ((2 * l + 1) / (4 * Real.pi)) := by
  have : (0 : ℝ) ≤ l := by exact_mod_cast hl
  have := Real.pi_pos
  positivity

theorem scoef_eq {g : Grid} {s L l m : ℤ} (hg : g.Enough L) (hl : max |m| |s| ≤ l) (hL : l < L) {f : ℤ → ℤ → ℂ} {a : ℤ → ℤ → ℂ}
    (hf : ∀ t ∈ Finset.Ico 0 g.nθ, ∀ x ∈ Finset.Ico 0 g.nφ, f t x = series s L a (g.θ t) (node g.nφ x)) :
    scoef g s L f l m = a l m := by
  unfold scoef
  rw [recover_eq (n := -s) (a := fun l m => (((-1) ^ s * Real.sqrt ((2 * l + 1) / (4 * Real.pi)) : ℝ) : ℂ) * a l m) hg
    (by rwa [abs_neg]) hL]
  · have h0 : 0 ≤ l := (abs_nonneg m).trans ((le_max_left _ _).trans hl)
    have hp := sqrt_deg_pos h0
    rw [← mul_assoc, ← Complex.ofReal_mul]
    have : ((-1) ^ s * (Real.sqrt ((2 * l + 1) / (4 * Real.pi)))⁻¹ * ((-1) ^ s * Real.sqrt ((2 * l + 1) / (4 * Real.pi)))) = (1 : ℝ) := by
      have h1 : ((-1 : ℝ)) ^ s * (-1) ^ s = 1 := by rw [← zpow_add₀ (by norm_num)]; exact Even.neg_one_zpow ⟨s, rfl⟩
      have h2 := inv_mul_cancel₀ hp.ne'
      linear_combination h2 + (Real.sqrt ((2 * l + 1) / (4 * Real.pi)))⁻¹ * Real.sqrt ((2 * l + 1) / (4 * Real.pi)) * h1
    rw [this]; simp
  · intro t ht x hx
    rw [hf t ht x hx]
    unfold series sY
    rw [abs_neg]
    refine Finset.sum_congr rfl fun l _ => Finset.sum_congr rfl fun m _ => ?_
    push_cast; ring

/-- the Wigner coefficients of a sampled function on the rotation group, `f y t x` at angles `γ_y, β_t, α_x` -/
noncomputable def wcoef (g : Grid) (L N : ℤ) (f : ℤ → ℤ → ℤ → ℂ) (n l m : ℤ) : ℂ :=
  (((2 * l + 1) / (8 * Real.pi ^ 2) : ℝ) : ℂ)⁻¹ * recover g L n (fun t x => fcoef (2 * N - 1) (fun y => f y t x) n) l m

theorem wcoef_eq {g : Grid} {L N n l m : ℤ} (hg : g.Enough L) (hn : |n| < N) (hl : max |m| |n| ≤ l) (hL : l < L)
    {f : ℤ → ℤ → ℤ → ℂ} {a : ℤ → ℤ → ℤ → ℂ}
    (hf : ∀ y ∈ Finset.Ico 0 (2 * N - 1), ∀ t ∈ Finset.Ico 0 g.nθ, ∀ x ∈ Finset.Ico 0 g.nφ,
      f y t x = wseries L N a (node g.nφ x) (g.θ t) (node (2 * N - 1) y)) : wcoef g L N f n l m = a n l m := by
  have h0 : 0 ≤ l := (abs_nonneg m).trans ((le_max_left _ _).trans hl)
  have hne : (((2 * l + 1) / (8 * Real.pi ^ 2) : ℝ) : ℂ) ≠ 0 := by
    have h1 : (0 : ℝ) ≤ l := by exact_mod_cast h0
    have := Real.pi_pos
    have : (0 : ℝ) < (2 * l + 1) / (8 * Real.pi ^ 2) := by positivity
    exact_mod_cast this.ne'
  unfold wcoef
  rw [recover_eq (n := n) (a := fun l m => (((2 * l + 1) / (8 * Real.pi ^ 2) : ℝ) : ℂ) * a n l m) hg hl hL]
  · field_simp
  · intro t ht x hx
    refine fcoef_eq (A := fun n => ∑ l ∈ Finset.Ico |n| L, ∑ m ∈ Finset.Icc (-l) l,
      (((2 * l + 1) / (8 * Real.pi ^ 2) : ℝ) : ℂ) * a n l m * ((wignerd l m n (g.θ t) : ℝ) : ℂ) * cis (m * node g.nφ x))
      le_rfl hn fun y hy => ?_
    rw [hf y hy t ht x hx]
    unfold wseries wD
    simp only [Finset.sum_mul]
    refine Finset.sum_congr rfl fun n _ => Finset.sum_congr rfl fun l _ => Finset.sum_congr rfl fun m _ => ?_
    rw [map_mul, map_mul, conj_cis, conj_cis, Complex.conj_ofReal, neg_neg, neg_neg]
    ring

/-! ## Real signals -/

theorem conj_sY (l m : ℤ) (θ φ : ℝ) : (starRingEnd ℂ) (sY 0 l m θ φ) = (-1) ^ m * sY 0 l (-m) θ φ := by
  unfold sY
  have e := wignerd_neg l m 0 θ
  rw [neg_zero, sub_zero] at e
  rw [neg_zero, e, map_mul, conj_cis, Complex.conj_ofReal]
  push_cast
  have h1 : ((-1 : ℂ)) ^ m * (-1) ^ m = 1 := by rw [← zpow_add₀ (by norm_num)]; exact Even.neg_one_zpow ⟨m, rfl⟩
  rw [show -((m : ℝ)) * φ = -(m * φ) by ring]
  linear_combination (-(Real.sqrt ((2 * l + 1) / (4 * Real.pi)) : ℂ) * (wignerd l m 0 θ : ℂ) * cis (-(m * φ))) * h1

theorem series_real {L : ℤ} {a : ℤ → ℤ → ℂ} (ha : ∀ l m, a l (-m) = (-1) ^ m * (starRingEnd ℂ) (a l m)) (θ φ : ℝ) :
    (starRingEnd ℂ) (series 0 L a θ φ) = series 0 L a θ φ := by
  unfold series
  rw [map_sum]
  refine Finset.sum_congr rfl fun l _ => ?_
  rw [map_sum]
  refine Finset.sum_bij' (fun m _ => -m) (fun m _ => -m) ?_ ?_ ?_ ?_ ?_
  · intro m hm; rw [Finset.mem_Icc] at hm ⊢; omega
  · intro m hm; rw [Finset.mem_Icc] at hm ⊢; omega
  · intro m _; ring
  · intro m _; ring
  · intro m _
    rw [map_mul, conj_sY, ha]; ring

end S2wav.Sphere
