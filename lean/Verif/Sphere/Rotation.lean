import Verif.Sphere.Harmonics
import Mathlib.Data.Nat.Choose.Sum

/-! # Rotations

The Wigner functions are the matrix elements of a representation of the 2×2 matrices, hence of rotations. -/

namespace S2wav.Sphere
open Polynomial

/-- a 2×2 matrix `(p q; r t)` -/
@[ext] structure M2 where
  p : ℂ
  q : ℂ
  r : ℂ
  t : ℂ

namespace M2

/-- matrix product -/
def mul (g h : M2) : M2 := ⟨g.p * h.p + g.q * h.r, g.p * h.q + g.q * h.t, g.r * h.p + g.t * h.r, g.r * h.q + g.t * h.t⟩

/-- conjugate transpose -/
noncomputable def adj (g : M2) : M2 := ⟨(starRingEnd ℂ) g.p, (starRingEnd ℂ) g.r, (starRingEnd ℂ) g.q, (starRingEnd ℂ) g.t⟩

/-- unit matrix -/
def one : M2 := ⟨1, 0, 0, 1⟩

theorem mul_assoc (g h k : M2) : (g.mul h).mul k = g.mul (h.mul k) := by
  ext <;> simp only [mul] <;> ring

theorem one_mul (g : M2) : one.mul g = g := by ext <;> simp [mul, one]

theorem mul_one (g : M2) : g.mul one = g := by ext <;> simp [mul, one]

end M2

/-- matrix elements of the representation of degree `l` -/
noncomputable def wmat (l m n : ℤ) (g : M2) : ℂ :=
  ∑ k ∈ Finset.Icc (max 0 (n - m)) (min (l + n) (l - m)), (wwt l m n k : ℂ) *
    (g.p ^ (l + n - k).toNat * g.r ^ k.toNat * (g.q ^ (m - n + k).toNat * g.t ^ (l - m - k).toNat))

/-- normalised monomials -/
noncomputable def mono (l n : ℤ) (x y : ℂ) : ℂ :=
  ((Real.sqrt (fac (l + n) * fac (l - n)))⁻¹ : ℝ) * (x ^ (l + n).toNat * y ^ (l - n).toNat)

/-- matrices act on homogeneous polynomials -/
theorem mono_act {l n : ℤ} (hn : |n| ≤ l) (g : M2) (x y : ℂ) :
    mono l n (g.p * x + g.r * y) (g.q * x + g.t * y) = ∑ m ∈ Finset.Icc (-l) l, wmat l m n g * mono l m x y := by
  have hn' := abs_le.1 hn
  obtain ⟨A, hA⟩ : ∃ A : ℕ, l + n = A := ⟨(l + n).toNat, by omega⟩
  obtain ⟨B, hB⟩ : ∃ B : ℕ, l - n = B := ⟨(l - n).toNat, by omega⟩
  have hL : mono l n (g.p * x + g.r * y) (g.q * x + g.t * y) = ∑ u ∈ Finset.range (A + 1) ×ˢ Finset.range (B + 1),
      ((Real.sqrt (fac (l + n) * fac (l - n)))⁻¹ : ℝ) * (((g.p * x) ^ (A - u.1) * (g.r * y) ^ u.1 * (A.choose u.1)) *
        ((g.q * x) ^ u.2 * (g.t * y) ^ (B - u.2) * (B.choose u.2))) := by
    unfold mono
    rw [hA, hB, Int.toNat_natCast, Int.toNat_natCast, add_comm (g.p * x), add_pow, add_pow, Finset.sum_mul_sum, Finset.mul_sum, Finset.sum_product]
    refine Finset.sum_congr rfl fun i _ => ?_
    rw [Finset.mul_sum]
    refine Finset.sum_congr rfl fun j _ => ?_
    ring
  have hR : ∑ m ∈ Finset.Icc (-l) l, wmat l m n g * mono l m x y = ∑ v ∈ (Finset.Icc (-l) l).sigma
      fun m => Finset.Icc (max 0 (n - m)) (min (l + n) (l - m)), (wwt l v.1 n v.2 : ℂ) *
    (g.p ^ (l + n - v.2).toNat * g.r ^ v.2.toNat * (g.q ^ (v.1 - n + v.2).toNat * g.t ^ (l - v.1 - v.2).toNat)) * mono l v.1 x y := by
    rw [Finset.sum_sigma]
    refine Finset.sum_congr rfl fun m _ => ?_
    unfold wmat
    rw [Finset.sum_mul]
  rw [hL, hR]
  refine Finset.sum_bij' (fun u _ => ⟨n - u.1 + u.2, (u.1 : ℤ)⟩) (fun v _ => (v.2.toNat, (v.1 - n + v.2).toNat)) ?_ ?_ ?_ ?_ ?_
  · intro u hu
    rw [Finset.mem_product, Finset.mem_range, Finset.mem_range] at hu
    rw [Finset.mem_sigma, Finset.mem_Icc, Finset.mem_Icc]
    dsimp only
    omega
  · intro v hv
    rw [Finset.mem_sigma, Finset.mem_Icc, Finset.mem_Icc] at hv
    rw [Finset.mem_product, Finset.mem_range, Finset.mem_range]
    dsimp only
    omega
  · intro u hu
    rw [Finset.mem_product, Finset.mem_range, Finset.mem_range] at hu
    ext <;> dsimp only <;> omega
  · intro v hv
    rw [Finset.mem_sigma, Finset.mem_Icc, Finset.mem_Icc] at hv
    refine Sigma.ext ?_ (heq_of_eq ?_) <;> dsimp only <;> omega
  · intro u hu
    rw [Finset.mem_product, Finset.mem_range, Finset.mem_range] at hu
    obtain ⟨i, j⟩ := u
    dsimp only at hu ⊢
    have hi : i ≤ A := by omega
    have hj : j ≤ B := by omega
    have e1 : (l + n - i).toNat = A - i := by omega
    have e2 : ((i : ℤ)).toNat = i := by omega
    have e3 : (n - i + j - n + i).toNat = j := by omega
    have e4 : (l - (n - i + j) - i).toNat = B - j := by omega
    unfold mono
    have e5 : (l + (n - i + j)).toNat = A - i + j := by omega
    have e6 : (l - (n - i + j)).toNat = i + (B - j) := by omega
    rw [e1, e2, e3, e4, e5, e6]
    have hw : (Real.sqrt (fac (l + n) * fac (l - n)))⁻¹ * (A.choose i) * (B.choose j) =
        wwt l (n - i + j) n i * (Real.sqrt (fac (l + (n - i + j)) * fac (l - (n - i + j))))⁻¹ := by
      unfold wwt
      have f1 : fac (l + n - i) = (A - i).factorial := by unfold fac; rw [e1]
      have f2 : fac (i : ℤ) = i.factorial := by unfold fac; rw [e2]
      have f3 : fac (n - i + j - n + i) = j.factorial := by unfold fac; rw [e3]
      have f4 : fac (l - (n - i + j) - i) = (B - j).factorial := by unfold fac; rw [e4]
      have c1 := Nat.choose_mul_factorial_mul_factorial hi
      have c2 := Nat.choose_mul_factorial_mul_factorial hj
      have f5 : fac (l + n) = A.factorial := by unfold fac; rw [hA, Int.toNat_natCast]
      have f6 : fac (l - n) = B.factorial := by unfold fac; rw [hB, Int.toNat_natCast]
      rw [f1, f2, f3, f4]
      have p1 := fac_pos (l + (n - i + j)); have p2 := fac_pos (l - (n - i + j))
      have p3 := fac_pos (l + n); have p4 := fac_pos (l - n)
      set a := fac (l + (n - i + j)); set b := fac (l - (n - i + j))
      have q4 : Real.sqrt (a * b * fac (l + n) * fac (l - n)) = Real.sqrt (a * b) * Real.sqrt (fac (l + n) * fac (l - n)) := by
        rw [← Real.sqrt_mul (by positivity), mul_assoc (a * b)]
      have q1 : Real.sqrt (a * b) ≠ 0 := (Real.sqrt_pos.2 (by positivity)).ne'
      have q2 : Real.sqrt (fac (l + n) * fac (l - n)) ≠ 0 := (Real.sqrt_pos.2 (by positivity)).ne'
      have q3 := Real.mul_self_sqrt (show 0 ≤ fac (l + n) * fac (l - n) by positivity)
      have c1' : (A.choose i : ℝ) * i.factorial * (A - i).factorial = fac (l + n) := by rw [f5, ← c1]; push_cast; ring
      have c2' : (B.choose j : ℝ) * j.factorial * (B - j).factorial = fac (l - n) := by rw [f6, ← c2]; push_cast; ring
      have g1 := Nat.factorial_pos i; have g2 := Nat.factorial_pos (A - i); have g3 := Nat.factorial_pos j; have g4 := Nat.factorial_pos (B - j)
      rw [q4]
      rw [← c1', ← c2'] at q3
      rw [← c1', ← c2'] at q2 ⊢
      generalize Real.sqrt ((A.choose i : ℝ) * i.factorial * (A - i).factorial * ((B.choose j : ℝ) * j.factorial * (B - j).factorial)) = S at *
      field_simp
      linear_combination -q3
    have hw' := congrArg (fun z : ℝ => (z : ℂ)) hw
    push_cast at hw' ⊢
    rw [mul_pow, mul_pow, mul_pow, mul_pow, pow_add, pow_add]
    linear_combination (g.p ^ (A - i) * x ^ (A - i) * (g.r ^ i * y ^ i) * (g.q ^ j * x ^ j * (g.t ^ (B - j) * y ^ (B - j)))) * hw'

theorem mono_indep {l : ℤ} {c c' : ℤ → ℂ} (h : ∀ x y, ∑ m ∈ Finset.Icc (-l) l, c m * mono l m x y = ∑ m ∈ Finset.Icc (-l) l, c' m * mono l m x y)
    {m : ℤ} (hm : |m| ≤ l) : c m = c' m := by
  have hm' := abs_le.1 hm
  let s : ℤ → ℂ := fun m => ((Real.sqrt (fac (l + m) * fac (l - m)))⁻¹ : ℝ)
  have key : ∀ c : ℤ → ℂ, ∀ x, (∑ m ∈ Finset.Icc (-l) l, Polynomial.C (c m * s m) * X ^ (l + m).toNat : ℂ[X]).eval x =
      ∑ m ∈ Finset.Icc (-l) l, c m * mono l m x 1 := by
    intro c x
    rw [eval_finsetSum]
    refine Finset.sum_congr rfl fun m _ => ?_
    simp only [eval_mul, eval_C, eval_pow, eval_X, mono, one_pow, mul_one, s]
    ring
  have hp := Polynomial.funext fun x => (key c x).trans ((h x 1).trans (key c' x).symm)
  have hc : ∀ c : ℤ → ℂ, (∑ m ∈ Finset.Icc (-l) l, Polynomial.C (c m * s m) * X ^ (l + m).toNat : ℂ[X]).coeff (l + m).toNat = c m * s m := by
    intro c
    rw [finsetSum_coeff, Finset.sum_eq_single m]
    · rw [coeff_C_mul, coeff_X_pow, if_pos rfl, mul_one]
    · intro m' hm1 hne
      rw [Finset.mem_Icc] at hm1
      rw [coeff_C_mul, coeff_X_pow, if_neg (by omega), mul_zero]
    · intro h; exact absurd (Finset.mem_Icc.2 hm') h
  have := (hc c).symm.trans ((congrArg (fun P : ℂ[X] => P.coeff (l + m).toNat) hp).trans (hc c'))
  refine mul_right_cancel₀ ?_ this
  have h1 := fac_pos (l + m); have h2 := fac_pos (l - m)
  have : (Real.sqrt (fac (l + m) * fac (l - m)))⁻¹ ≠ 0 := inv_ne_zero (Real.sqrt_pos.2 (by positivity)).ne'
  show (((Real.sqrt (fac (l + m) * fac (l - m)))⁻¹ : ℝ) : ℂ) ≠ 0
  exact_mod_cast this

/-- the representation property -/
theorem wmat_mul {l m n : ℤ} (hm : |m| ≤ l) (hn : |n| ≤ l) (g h : M2) :
    wmat l m n (g.mul h) = ∑ k ∈ Finset.Icc (-l) l, wmat l m k g * wmat l k n h := by
  refine mono_indep (l := l) (c := fun m => wmat l m n (g.mul h)) (c' := fun m => ∑ k ∈ Finset.Icc (-l) l, wmat l m k g * wmat l k n h) (fun x y => ?_) hm
  rw [← mono_act hn]
  have e1 : (g.mul h).p * x + (g.mul h).r * y = h.p * (g.p * x + g.r * y) + h.r * (g.q * x + g.t * y) := by simp only [M2.mul]; ring
  have e2 : (g.mul h).q * x + (g.mul h).t * y = h.q * (g.p * x + g.r * y) + h.t * (g.q * x + g.t * y) := by simp only [M2.mul]; ring
  rw [e1, e2, mono_act hn]
  have e3 : ∀ k ∈ Finset.Icc (-l) l, wmat l k n h * mono l k (g.p * x + g.r * y) (g.q * x + g.t * y) =
      ∑ m ∈ Finset.Icc (-l) l, wmat l m k g * wmat l k n h * mono l m x y := by
    intro k hk
    rw [mono_act (abs_le.2 (Finset.mem_Icc.1 hk)), Finset.mul_sum]
    refine Finset.sum_congr rfl fun m _ => ?_
    ring
  rw [Finset.sum_congr rfl e3, Finset.sum_comm]
  refine Finset.sum_congr rfl fun m _ => ?_
  rw [Finset.sum_mul]

theorem wmat_adj (l m n : ℤ) (g : M2) : wmat l m n g.adj = (starRingEnd ℂ) (wmat l n m g) := by
  unfold wmat
  rw [map_sum]
  refine Finset.sum_bij' (fun k _ => k + (m - n)) (fun k _ => k - (m - n)) ?_ ?_ ?_ ?_ ?_
  · intro k hk; rw [Finset.mem_Icc] at hk ⊢; omega
  · intro k hk; rw [Finset.mem_Icc] at hk ⊢; omega
  · intro k _; ring
  · intro k _; ring
  · intro k hk
    rw [Finset.mem_Icc] at hk
    have a1 : l + m - (k + (m - n)) = l + n - k := by ring
    have a2 : k + (m - n) = m - n + k := by ring
    have a3 : n - m + (k + (m - n)) = k := by ring
    have a4 : l - n - (k + (m - n)) = l - m - k := by ring
    have e : wwt l n m (k + (m - n)) = wwt l m n k := by
      unfold wwt
      rw [a1, a3, a4, a2]
      congr 1
      · congr 1; ring
      · ring
    rw [a1, a3, a4, e, a2]
    simp only [map_mul, map_pow, Complex.conj_ofReal, M2.adj]
    ring

theorem wmat_one {l m n : ℤ} (hm : |m| ≤ l) (hn : |n| ≤ l) : wmat l m n M2.one = if m = n then 1 else 0 := by
  refine mono_indep (l := l) (c := fun m => wmat l m n M2.one) (c' := fun m => if m = n then 1 else 0) (fun x y => ?_) hm
  rw [← mono_act hn]
  simp only [M2.one, one_mul, zero_mul, add_zero, zero_add]
  rw [Finset.sum_eq_single n]
  · simp
  · intro k _ h; simp [h]
  · intro h; exact absurd (Finset.mem_Icc.2 (abs_le.1 hn)) h

theorem wmat_unitary {l n n' : ℤ} (hn : |n| ≤ l) (hn' : |n'| ≤ l) {g : M2} (hg : g.adj.mul g = M2.one) :
    ∑ m ∈ Finset.Icc (-l) l, (starRingEnd ℂ) (wmat l m n g) * wmat l m n' g = if n = n' then 1 else 0 := by
  rw [← wmat_one hn hn', ← hg, wmat_mul hn hn']
  refine Finset.sum_congr rfl fun m _ => ?_
  rw [wmat_adj]

/-! ## Euler angles -/

/-- rotation about the z axis -/
noncomputable def rotZ (a : ℝ) : M2 := ⟨cis (-(a / 2)), 0, 0, cis (a / 2)⟩

/-- rotation about the y axis -/
noncomputable def rotY (b : ℝ) : M2 := ⟨(Real.cos (b / 2) : ℝ), -(Real.sin (b / 2) : ℝ), (Real.sin (b / 2) : ℝ), (Real.cos (b / 2) : ℝ)⟩

/-- the rotation with Euler angles `α, β, γ` -/
noncomputable def euler (α β γ : ℝ) : M2 := (rotZ α).mul ((rotY β).mul (rotZ γ))

theorem cis_pow (x : ℝ) (n : ℕ) : cis x ^ n = cis (n * x) := by
  unfold cis
  rw [← Complex.exp_nat_mul]; congr 1; push_cast; ring

theorem wmat_rotZ_left (l m n : ℤ) (a : ℝ) (g : M2) : wmat l m n ((rotZ a).mul g) = cis (-(m * a)) * wmat l m n g := by
  unfold wmat
  rw [Finset.mul_sum]
  refine Finset.sum_congr rfl fun k hk => ?_
  rw [Finset.mem_Icc] at hk
  simp only [M2.mul, rotZ, zero_mul, add_zero, zero_add, mul_pow, cis_pow]
  have e : cis (((l + n - k).toNat : ℝ) * -(a / 2)) * cis ((k.toNat : ℝ) * (a / 2)) * (cis (((m - n + k).toNat : ℝ) * -(a / 2)) *
      cis (((l - m - k).toNat : ℝ) * (a / 2))) = cis (-(m * a)) := by
    rw [← cis_add, ← cis_add, ← cis_add]
    have h1 : (((l + n - k).toNat : ℤ) : ℝ) = ((l + n - k : ℤ) : ℝ) := by rw [Int.toNat_of_nonneg (by omega)]
    have h2 : ((k.toNat : ℤ) : ℝ) = ((k : ℤ) : ℝ) := by rw [Int.toNat_of_nonneg (by omega)]
    have h3 : (((m - n + k).toNat : ℤ) : ℝ) = ((m - n + k : ℤ) : ℝ) := by rw [Int.toNat_of_nonneg (by omega)]
    have h4 : (((l - m - k).toNat : ℤ) : ℝ) = ((l - m - k : ℤ) : ℝ) := by rw [Int.toNat_of_nonneg (by omega)]
    rw [Int.cast_natCast] at h1 h2 h3 h4
    rw [h1, h2, h3, h4]
    congr 1; push_cast; ring
  rw [← e]; ring

theorem wmat_rotZ_right (l m n : ℤ) (a : ℝ) (g : M2) : wmat l m n (g.mul (rotZ a)) = wmat l m n g * cis (-(n * a)) := by
  unfold wmat
  rw [Finset.sum_mul]
  refine Finset.sum_congr rfl fun k hk => ?_
  rw [Finset.mem_Icc] at hk
  simp only [M2.mul, rotZ, mul_zero, add_zero, zero_add, mul_pow, cis_pow]
  have e : cis (((l + n - k).toNat : ℝ) * -(a / 2)) * cis ((k.toNat : ℝ) * -(a / 2)) * (cis (((m - n + k).toNat : ℝ) * (a / 2)) *
      cis (((l - m - k).toNat : ℝ) * (a / 2))) = cis (-(n * a)) := by
    rw [← cis_add, ← cis_add, ← cis_add]
    have h1 : (((l + n - k).toNat : ℤ) : ℝ) = ((l + n - k : ℤ) : ℝ) := by rw [Int.toNat_of_nonneg (by omega)]
    have h2 : ((k.toNat : ℤ) : ℝ) = ((k : ℤ) : ℝ) := by rw [Int.toNat_of_nonneg (by omega)]
    have h3 : (((m - n + k).toNat : ℤ) : ℝ) = ((m - n + k : ℤ) : ℝ) := by rw [Int.toNat_of_nonneg (by omega)]
    have h4 : (((l - m - k).toNat : ℤ) : ℝ) = ((l - m - k : ℤ) : ℝ) := by rw [Int.toNat_of_nonneg (by omega)]
    rw [Int.cast_natCast] at h1 h2 h3 h4
    rw [h1, h2, h3, h4]
    congr 1; push_cast; ring
  rw [← e]; ring

theorem wmat_rotY (l m n : ℤ) (b : ℝ) : wmat l m n (rotY b) = (wignerd l m n b : ℝ) := by
  unfold wmat wignerd
  rw [Complex.ofReal_sum]
  refine Finset.sum_congr rfl fun k hk => ?_
  rw [Finset.mem_Icc] at hk
  have e1 : (2 * l + n - m - 2 * k).toNat = (l + n - k).toNat + (l - m - k).toNat := by omega
  have e2 : (m - n + 2 * k).toNat = k.toNat + (m - n + k).toNat := by omega
  simp only [rotY]
  rw [neg_pow, e1, e2, pow_add, pow_add]
  push_cast; ring

/-- matrix elements of a rotation are the Wigner functions of its Euler angles -/
theorem wmat_euler (l m n : ℤ) (α β γ : ℝ) : wmat l m n (euler α β γ) = wD l m n α β γ := by
  unfold euler wD
  rw [wmat_rotZ_left, wmat_rotZ_right, wmat_rotY]; ring

theorem euler_rotZ (α β γ η : ℝ) : (euler α β γ).mul (rotZ η) = euler α β (γ + η) := by
  unfold euler
  rw [M2.mul_assoc, M2.mul_assoc]
  have : (rotZ γ).mul (rotZ η) = rotZ (γ + η) := by
    ext <;> simp only [M2.mul, rotZ, mul_zero, zero_mul, add_zero, zero_add, ← cis_add] <;> congr 1 <;> ring
  rw [this]

/-- special unitary matrices -/
structure M2.SU (g : M2) : Prop where
  norm : Complex.normSq g.p + Complex.normSq g.r = 1
  q : g.q = -(starRingEnd ℂ) g.r
  t : g.t = (starRingEnd ℂ) g.p

theorem M2.SU.mul {g h : M2} (hg : g.SU) (hh : h.SU) : (g.mul h).SU := by
  refine ⟨?_, ?_, ?_⟩
  · have h1 := congrArg (fun x : ℝ => (x : ℂ)) hg.norm
    have h2 := congrArg (fun x : ℝ => (x : ℂ)) hh.norm
    have : ((Complex.normSq (g.mul h).p + Complex.normSq (g.mul h).r : ℝ) : ℂ) = ((1 : ℝ) : ℂ) := by
      push_cast at h1 h2 ⊢
      rw [← Complex.mul_conj, ← Complex.mul_conj] at h1 h2 ⊢
      simp only [M2.mul, hg.q, hg.t, map_add, map_mul, map_neg, Complex.conj_conj]
      linear_combination (h.p * (starRingEnd ℂ) h.p + h.r * (starRingEnd ℂ) h.r) * h1 + h2
    exact_mod_cast this
  · simp only [M2.mul, hg.q, hg.t, hh.q, hh.t, map_add, map_mul, map_neg, Complex.conj_conj]; ring
  · simp only [M2.mul, hg.q, hg.t, hh.q, hh.t, map_add, map_mul, map_neg, Complex.conj_conj]; ring

theorem M2.SU.adj {g : M2} (hg : g.SU) : g.adj.SU := by
  refine ⟨?_, ?_, ?_⟩
  · simp only [M2.adj, hg.q, Complex.normSq_conj, map_neg, Complex.conj_conj, Complex.normSq_neg]
    exact hg.norm
  · simp only [M2.adj, hg.q, map_neg, Complex.conj_conj, neg_neg]
  · simp only [M2.adj, hg.t]

theorem M2.SU.adj_mul {g : M2} (hg : g.SU) : g.adj.mul g = M2.one := by
  have h1 := congrArg (fun x : ℝ => (x : ℂ)) hg.norm
  push_cast at h1
  rw [← Complex.mul_conj, ← Complex.mul_conj] at h1
  ext <;> simp only [M2.adj, M2.mul, M2.one, hg.q, hg.t, map_neg, Complex.conj_conj]
  · linear_combination h1
  · ring
  · ring
  · linear_combination h1

theorem M2.SU.mul_adj {g : M2} (hg : g.SU) : g.mul g.adj = M2.one := by
  have h1 := congrArg (fun x : ℝ => (x : ℂ)) hg.norm
  push_cast at h1
  rw [← Complex.mul_conj, ← Complex.mul_conj] at h1
  ext <;> simp only [M2.adj, M2.mul, M2.one, hg.q, hg.t, map_neg, Complex.conj_conj]
  · linear_combination h1
  · ring
  · ring
  · linear_combination h1

theorem normSq_cis (x : ℝ) : Complex.normSq (cis x) = 1 := by
  have : ((Complex.normSq (cis x) : ℝ) : ℂ) = 1 := by
    rw [← Complex.mul_conj, conj_cis, ← cis_add, add_neg_cancel, cis_zero]
  exact_mod_cast this

theorem rotZ_SU (a : ℝ) : (rotZ a).SU := by
  refine ⟨?_, ?_, ?_⟩
  · simp [rotZ, normSq_cis]
  · simp [rotZ]
  · simp [rotZ, conj_cis]

theorem rotY_SU (b : ℝ) : (rotY b).SU := by
  refine ⟨?_, ?_, ?_⟩
  · simp only [rotY, Complex.normSq_ofReal]
    have := Real.sin_sq_add_cos_sq (b / 2)
    linarith [sq (Real.sin (b / 2)), sq (Real.cos (b / 2))]
  · simp only [rotY, Complex.conj_ofReal]
  · simp only [rotY, Complex.conj_ofReal]

theorem euler_SU (α β γ : ℝ) : (euler α β γ).SU := (rotZ_SU α).mul ((rotY_SU β).mul (rotZ_SU γ))

theorem norm_mul_cis_arg (z : ℂ) : ((‖z‖ : ℝ) : ℂ) * cis z.arg = z := by
  unfold cis; exact Complex.norm_mul_exp_arg_mul_I z

/-- every rotation has Euler angles -/
theorem euler_exists {g : M2} (hg : g.SU) : ∃ α β γ, 0 ≤ β ∧ β ≤ Real.pi ∧ g = euler α β γ := by
  have hn := hg.norm
  rw [Complex.normSq_eq_norm_sq, Complex.normSq_eq_norm_sq] at hn
  have h0 := norm_nonneg g.p
  have h1 := norm_nonneg g.r
  have hle : ‖g.p‖ ≤ 1 := by nlinarith
  have hcos : Real.cos (Real.arccos ‖g.p‖) = ‖g.p‖ := Real.cos_arccos (by linarith) hle
  have hsin : Real.sin (Real.arccos ‖g.p‖) = ‖g.r‖ := by
    rw [Real.sin_arccos, show 1 - ‖g.p‖ ^ 2 = ‖g.r‖ ^ 2 by linarith, Real.sqrt_sq h1]
  refine ⟨g.r.arg - g.p.arg, 2 * Real.arccos ‖g.p‖, -(g.p.arg + g.r.arg), by linarith [Real.arccos_nonneg ‖g.p‖],
    by linarith [(Real.arccos_le_pi_div_two).2 h0], ?_⟩
  have hh : 2 * Real.arccos ‖g.p‖ / 2 = Real.arccos ‖g.p‖ := by ring
  have hp := norm_mul_cis_arg g.p
  have hr := norm_mul_cis_arg g.r
  have hp' := congrArg (starRingEnd ℂ) hp
  have hr' := congrArg (starRingEnd ℂ) hr
  rw [map_mul, Complex.conj_ofReal, conj_cis] at hp' hr'
  ext
  · simp only [euler, M2.mul, rotZ, rotY, hh, hcos, hsin, mul_zero, zero_mul, add_zero, zero_add]
    conv_lhs => rw [← hp]
    rw [mul_left_comm, ← cis_add]
    congr 2; ring
  · rw [hg.q, ← hr']
    simp only [euler, M2.mul, rotZ, rotY, hh, hcos, hsin, mul_zero, zero_mul, add_zero, zero_add]
    rw [mul_left_comm, ← cis_add, neg_mul]
    congr 3; ring
  · simp only [euler, M2.mul, rotZ, rotY, hh, hcos, hsin, mul_zero, zero_mul, add_zero, zero_add]
    conv_lhs => rw [← hr]
    rw [mul_left_comm, ← cis_add]
    congr 2; ring
  · rw [hg.t, ← hp']
    simp only [euler, M2.mul, rotZ, rotY, hh, hcos, hsin, mul_zero, zero_mul, add_zero, zero_add]
    rw [mul_left_comm, ← cis_add]
    congr 2; ring

/-! ## Rotating signals -/

/-- `F'` is the signal `F` of spin `s` rotated by `g`: the direction with frame `euler φ' θ' η` moves to the one with frame
`euler φ θ 0`. For `s = 0` see `rotated_iff`. -/
def Rotated (s : ℤ) (g : M2) (F F' : ℝ → ℝ → ℂ) : Prop :=
  ∀ θ φ θ' φ' η, euler φ θ 0 = g.mul (euler φ' θ' η) → F' θ φ = cis (-(s * η)) * F θ' φ'

theorem sY_wmat (s l m : ℤ) (θ φ : ℝ) : sY s l m θ φ = (((-1) ^ s * Real.sqrt ((2 * l + 1) / (4 * Real.pi)) : ℝ) : ℂ) *
    (starRingEnd ℂ) (wmat l m (-s) (euler φ θ 0)) := by
  rw [wmat_euler]
  unfold sY wD
  rw [map_mul, map_mul, conj_cis, conj_cis, Complex.conj_ofReal, mul_zero, neg_zero, neg_zero, cis_zero, neg_neg]
  push_cast; ring

theorem sY_rotated {s l m : ℤ} (hm : |m| ≤ l) (hs : |s| ≤ l) (g : M2) {θ φ θ' φ' η : ℝ} (h : euler φ θ 0 = g.mul (euler φ' θ' η)) :
    sY s l m θ φ = cis (-(s * η)) * ∑ k ∈ Finset.Icc (-l) l, (starRingEnd ℂ) (wmat l m k g) * sY s l k θ' φ' := by
  rw [sY_wmat, h, wmat_mul hm (by rwa [abs_neg]), map_sum, Finset.mul_sum, Finset.mul_sum]
  refine Finset.sum_congr rfl fun k _ => ?_
  rw [sY_wmat, show euler φ' θ' η = (euler φ' θ' 0).mul (rotZ η) by rw [euler_rotZ, zero_add], wmat_rotZ_right]
  rw [map_mul, map_mul, conj_cis]
  have : -(-((-s : ℤ) * η)) = -(s * η) := by push_cast; ring
  rw [this]; ring

/-- coefficients of a rotated signal -/
noncomputable def rotCoef (g : M2) (a : ℤ → ℤ → ℂ) (l m : ℤ) : ℂ := ∑ k ∈ Finset.Icc (-l) l, wmat l m k g * a l k

theorem rotCoef_rotated {s L : ℤ} {g : M2} (hg : g.SU) (a : ℤ → ℤ → ℂ) : Rotated s g (series s L a) (series s L (rotCoef g a)) := by
  intro θ φ θ' φ' η h
  unfold series
  rw [Finset.mul_sum]
  refine Finset.sum_congr rfl fun l hl => ?_
  rw [Finset.mem_Ico] at hl
  have e1 : ∀ m ∈ Finset.Icc (-l) l, rotCoef g a l m * sY s l m θ φ = ∑ k ∈ Finset.Icc (-l) l, ∑ k' ∈ Finset.Icc (-l) l,
      cis (-(s * η)) * (a l k * sY s l k' θ' φ') * ((starRingEnd ℂ) (wmat l m k' g) * wmat l m k g) := by
    intro m hm
    rw [sY_rotated (abs_le.2 (Finset.mem_Icc.1 hm)) hl.1 g h, rotCoef, Finset.sum_mul]
    refine Finset.sum_congr rfl fun k _ => ?_
    rw [Finset.mul_sum, Finset.mul_sum]
    refine Finset.sum_congr rfl fun k' _ => ?_
    ring
  rw [Finset.sum_congr rfl e1, Finset.sum_comm, Finset.mul_sum]
  refine Finset.sum_congr rfl fun k hk => ?_
  rw [Finset.sum_comm, Finset.sum_eq_single k]
  · rw [← Finset.mul_sum, wmat_unitary (abs_le.2 (Finset.mem_Icc.1 hk)) (abs_le.2 (Finset.mem_Icc.1 hk)) hg.adj_mul, if_pos rfl, mul_one]
  · intro k' hk' hne
    rw [← Finset.mul_sum, wmat_unitary (abs_le.2 (Finset.mem_Icc.1 hk')) (abs_le.2 (Finset.mem_Icc.1 hk)) hg.adj_mul, if_neg hne, mul_zero]
  · intro h; exact absurd hk h

/-- there is only one rotated signal -/
theorem Rotated.unique {s : ℤ} {g : M2} (hg : g.SU) {F F' F'' : ℝ → ℝ → ℂ} (h' : Rotated s g F F') (h'' : Rotated s g F F'') (θ φ : ℝ) :
    F' θ φ = F'' θ φ := by
  obtain ⟨φ', θ', η, -, -, h⟩ := euler_exists (hg.adj.mul (euler_SU φ θ 0))
  have e : euler φ θ 0 = g.mul (euler φ' θ' η) := by
    rw [← h, ← M2.mul_assoc, hg.mul_adj, M2.one_mul]
  rw [h' θ φ θ' φ' η e, h'' θ φ θ' φ' η e]

/-- so rotating a band-limited signal gives a band-limited signal -/
theorem Rotated.series {s L : ℤ} {g : M2} (hg : g.SU) {a : ℤ → ℤ → ℂ} {F : ℝ → ℝ → ℂ} (h : Rotated s g (series s L a) F) :
    F = Sphere.series s L (rotCoef g a) := by
  ext θ φ
  exact h.unique hg (rotCoef_rotated hg a) θ φ

/-! ## Rotations of space -/

/-- the unit vector of colatitude `θ` and longitude `φ` -/
noncomputable def vec (θ φ : ℝ) : ℝ × ℝ × ℝ := (Real.sin θ * Real.cos φ, Real.sin θ * Real.sin φ, Real.cos θ)

/-- rotation of space about the z axis -/
noncomputable def spinZ (a : ℝ) (v : ℝ × ℝ × ℝ) : ℝ × ℝ × ℝ :=
  (Real.cos a * v.1 - Real.sin a * v.2.1, Real.sin a * v.1 + Real.cos a * v.2.1, v.2.2)

/-- rotation of space about the y axis -/
noncomputable def spinY (b : ℝ) (v : ℝ × ℝ × ℝ) : ℝ × ℝ × ℝ :=
  (Real.cos b * v.1 + Real.sin b * v.2.2, v.2.1, -Real.sin b * v.1 + Real.cos b * v.2.2)

/-- rotation of space with Euler angles `α, β, γ` -/
noncomputable def spin3 (α β γ : ℝ) (v : ℝ × ℝ × ℝ) : ℝ × ℝ × ℝ := spinZ α (spinY β (spinZ γ v))

/-- where a matrix takes the north pole -/
noncomputable def pole (g : M2) : ℝ × ℝ × ℝ :=
  (2 * ((starRingEnd ℂ) g.p * g.r).re, 2 * ((starRingEnd ℂ) g.p * g.r).im, Complex.normSq g.p - Complex.normSq g.r)

theorem cis_re (x : ℝ) : (cis x).re = Real.cos x := by unfold cis; rw [Complex.exp_ofReal_mul_I_re]

theorem cis_im (x : ℝ) : (cis x).im = Real.sin x := by unfold cis; rw [Complex.exp_ofReal_mul_I_im]

theorem pole_rotZ (a : ℝ) (g : M2) : pole ((rotZ a).mul g) = spinZ a (pole g) := by
  have e : (starRingEnd ℂ) (cis (-(a / 2)) * g.p) * (cis (a / 2) * g.r) = cis a * ((starRingEnd ℂ) g.p * g.r) := by
    rw [map_mul, conj_cis, neg_neg, mul_mul_mul_comm, ← cis_add, show a / 2 + a / 2 = a by ring]
  unfold pole spinZ
  simp only [M2.mul, rotZ, zero_mul, add_zero, zero_add, e, Complex.normSq_mul, normSq_cis, one_mul]
  generalize (starRingEnd ℂ) g.p * g.r = z
  rw [Complex.mul_re, Complex.mul_im, cis_re, cis_im]
  refine Prod.ext ?_ (Prod.ext ?_ rfl) <;> dsimp only <;> ring

theorem pole_rotY (b : ℝ) (g : M2) : pole ((rotY b).mul g) = spinY b (pole g) := by
  have hb : b = 2 * (b / 2) := by ring
  have hc : Real.cos b = Real.cos (b / 2) ^ 2 - Real.sin (b / 2) ^ 2 := by
    conv_lhs => rw [hb]
    rw [Real.cos_two_mul']
  have hs : Real.sin b = 2 * Real.sin (b / 2) * Real.cos (b / 2) := by
    conv_lhs => rw [hb]
    rw [Real.sin_two_mul]
  have h1 := Real.sin_sq_add_cos_sq (b / 2)
  unfold pole spinY
  rw [hc, hs]
  simp only [M2.mul, rotY, Complex.normSq_apply, Complex.mul_re, Complex.mul_im, Complex.add_re, Complex.add_im, Complex.conj_re, Complex.conj_im,
    Complex.neg_re, Complex.neg_im, Complex.ofReal_re, Complex.ofReal_im, map_add, map_mul, map_neg, Complex.conj_ofReal]
  set C := Real.cos (b / 2); set S := Real.sin (b / 2)
  refine Prod.ext ?_ (Prod.ext ?_ ?_) <;> dsimp only
  · ring
  · linear_combination (2 * (g.p.re * g.r.im - g.p.im * g.r.re)) * h1
  · ring

theorem pole_euler (θ φ γ : ℝ) : pole (euler φ θ γ) = vec θ φ := by
  have e : pole ((rotZ γ).mul M2.one) = (0, 0, 1) := by
    rw [pole_rotZ]
    simp [spinZ, pole, M2.one]
  unfold euler vec
  rw [pole_rotZ, pole_rotY, ← M2.mul_one (rotZ γ), e]
  simp [spinZ, spinY]
  ring_nf
  simp

/-- frames over the same direction differ by a rotation about it -/
theorem pole_fibre {g h : M2} (hg : g.SU) (hh : h.SU) (e : pole g = pole h) : ∃ η, h = g.mul (rotZ η) := by
  unfold pole at e
  have e1 := congrArg (fun v : ℝ × ℝ × ℝ => v.1) e
  have e2 := congrArg (fun v : ℝ × ℝ × ℝ => v.2.1) e
  have e3 := congrArg (fun v : ℝ × ℝ × ℝ => v.2.2) e
  dsimp only at e1 e2 e3
  have ec : (starRingEnd ℂ) g.p * g.r = (starRingEnd ℂ) h.p * h.r := Complex.ext (by linarith) (by linarith)
  have n1 := hg.norm; have n2 := hh.norm
  have ep : Complex.normSq g.p = Complex.normSq h.p := by linarith
  have er : Complex.normSq g.r = Complex.normSq h.r := by linarith
  obtain ⟨w, hw, hp, hr⟩ : ∃ w : ℂ, Complex.normSq w = 1 ∧ h.p = w * g.p ∧ h.r = w * g.r := by
    by_cases h0 : g.p = 0
    · have hp0 : h.p = 0 := by rw [h0, map_zero] at ep; exact Complex.normSq_eq_zero.1 ep.symm
      have hr0 : g.r ≠ 0 := by
        intro h1; rw [h0, h1] at n1; simp at n1
      refine ⟨h.r / g.r, ?_, by rw [hp0, h0, mul_zero], by field_simp⟩
      rw [Complex.normSq_div, ← er, div_self (by rwa [Ne, Complex.normSq_eq_zero])]
    · have hw : Complex.normSq (h.p / g.p) = 1 := by
        rw [Complex.normSq_div, ← ep, div_self (by rwa [Ne, Complex.normSq_eq_zero])]
      refine ⟨h.p / g.p, hw, by field_simp, ?_⟩
      have hp : h.p = h.p / g.p * g.p := by field_simp
      have hc0 : (starRingEnd ℂ) g.p ≠ 0 := by rwa [Ne, map_eq_zero]
      have hwc : h.p / g.p * (starRingEnd ℂ) (h.p / g.p) = 1 := by rw [Complex.mul_conj, hw]; simp
      have hpc : (starRingEnd ℂ) h.p = (starRingEnd ℂ) (h.p / g.p) * (starRingEnd ℂ) g.p := by rw [← map_mul, ← hp]
      rw [hpc] at ec
      refine mul_left_cancel₀ hc0 ?_
      linear_combination (-(starRingEnd ℂ) g.p * h.r) * hwc - (h.p / g.p) * ec
  have hn : ‖w‖ = 1 := by
    rw [Complex.normSq_eq_norm_sq] at hw
    nlinarith [norm_nonneg w]
  have hwc : w = cis w.arg := by
    have := norm_mul_cis_arg w
    rw [hn] at this
    simpa using this.symm
  refine ⟨-(2 * w.arg), ?_⟩
  have a1 : -(-(2 * w.arg) / 2) = w.arg := by ring
  have a2 : -(2 * w.arg) / 2 = -w.arg := by ring
  ext
  · simp only [M2.mul, rotZ, mul_zero, add_zero, a1, ← hwc, hp]; ring
  · rw [hh.q, hr]
    simp only [M2.mul, rotZ, mul_zero, zero_add, a2, ← conj_cis, ← hwc, hg.q, map_mul]; ring
  · simp only [M2.mul, rotZ, mul_zero, add_zero, a1, ← hwc, hr]; ring
  · rw [hh.t, hp]
    simp only [M2.mul, rotZ, mul_zero, zero_add, a2, ← conj_cis, ← hwc, hg.t, map_mul]; ring

/-- a signal of spin 0 is rotated by moving its values: `F'(R x) = F(x)` -/
theorem rotated_iff (α β γ : ℝ) (F F' : ℝ → ℝ → ℂ) : Rotated 0 (euler α β γ) F F' ↔
    ∀ θ φ θ' φ', vec θ φ = spin3 α β γ (vec θ' φ') → F' θ φ = F θ' φ' := by
  have hpole : ∀ θ' φ' η, pole ((euler α β γ).mul (euler φ' θ' η)) = spin3 α β γ (vec θ' φ') := by
    intro θ' φ' η
    unfold spin3
    rw [← pole_euler θ' φ' η, ← pole_rotZ, ← pole_rotY, ← pole_rotZ, euler, M2.mul_assoc, M2.mul_assoc]
  constructor
  · intro h θ φ θ' φ' hv
    obtain ⟨η, hη⟩ := pole_fibre ((euler_SU α β γ).mul (euler_SU φ' θ' 0)) (euler_SU φ θ 0) (by rw [hpole, pole_euler, hv])
    rw [M2.mul_assoc, euler_rotZ, zero_add] at hη
    have := h θ φ θ' φ' η hη
    simpa [cis_zero] using this
  · intro h θ φ θ' φ' η he
    have := congrArg pole he
    rw [pole_euler, hpole] at this
    rw [h θ φ θ' φ' this]
    simp [cis_zero]

end S2wav.Sphere
