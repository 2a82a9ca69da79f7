import Mathlib.Analysis.SpecialFunctions.Trigonometric.Basic
import Mathlib.Algebra.Polynomial.Roots
import Mathlib.LinearAlgebra.LinearIndependent.Basic
import Mathlib.LinearAlgebra.Basis.VectorSpace

/-! # The Wigner d-functions

The functions s2fft expands signals in, from Wigner's formula.  The result needed about them is `exists_dual`: at enough
distinct angles they are linearly independent, so that the coefficients can be recovered from samples. -/

namespace S2wav.Sphere
open Polynomial

/-- factorial of a non-negative integer -/
noncomputable def fac (z : ℤ) : ℝ := (z.toNat.factorial : ℝ)

theorem fac_pos (z : ℤ) : 0 < fac z := by unfold fac; exact_mod_cast z.toNat.factorial_pos

/-- the weights in Wigner's formula -/
noncomputable def wwt (l m n k : ℤ) : ℝ :=
  Real.sqrt (fac (l + m) * fac (l - m) * fac (l + n) * fac (l - n)) /
    (fac (l + n - k) * fac k * fac (m - n + k) * fac (l - m - k))

theorem wwt_pos (l m n k : ℤ) : 0 < wwt l m n k := by
  have h := fun z => fac_pos z
  unfold wwt
  have := mul_pos (mul_pos (mul_pos (h (l + m)) (h (l - m))) (h (l + n))) (h (l - n))
  have h2 := mul_pos (mul_pos (mul_pos (h (l + n - k)) (h k)) (h (m - n + k))) (h (l - m - k))
  exact div_pos (Real.sqrt_pos.2 this) h2

/-- Wigner's formula for `d^l_mn(β)` -/
noncomputable def wignerd (l m n : ℤ) (β : ℝ) : ℝ :=
  ∑ k ∈ Finset.Icc (max 0 (n - m)) (min (l + n) (l - m)), (-1) ^ (m - n + k).toNat * wwt l m n k *
    Real.cos (β / 2) ^ (2 * l + n - m - 2 * k).toNat * Real.sin (β / 2) ^ (m - n + 2 * k).toNat

/-- `d^l_mn` without its zeros at the poles, as a polynomial in `sin² (β/2)` -/
noncomputable def wpoly (l m n : ℤ) : ℝ[X] :=
  ∑ k ∈ Finset.Icc (max 0 (n - m)) (min (l + n) (l - m)), C ((-1) ^ (m - n + k).toNat * wwt l m n k) *
    (X ^ (k - max 0 (n - m)).toNat * (1 - X) ^ (min (l + n) (l - m) - k).toNat)

theorem coeff_X_mul (i j : ℕ) : (X ^ i * (1 - X) ^ j : ℝ[X]).natDegree ≤ i + j ∧
    (X ^ i * (1 - X) ^ j : ℝ[X]).coeff (i + j) = (-1) ^ j := by
  have e : (1 - X : ℝ[X]) = C (-1) * (X - C 1) := by simp
  have hm : ((X - C 1) ^ j : ℝ[X]).Monic := (monic_X_sub_C 1).pow j
  have hd : ((X - C 1) ^ j : ℝ[X]).natDegree = j := by rw [(monic_X_sub_C 1).natDegree_pow, natDegree_X_sub_C, mul_one]
  have e2 : (X ^ i * (1 - X) ^ j : ℝ[X]) = C ((-1) ^ j) * (X ^ i * (X - C 1) ^ j) := by
    rw [e, mul_pow, ← C_pow]; ring
  have hm2 : (X ^ i * (X - C 1) ^ j : ℝ[X]).Monic := (monic_X_pow i).mul hm
  have hd2 : (X ^ i * (X - C 1) ^ j : ℝ[X]).natDegree = i + j := by
    rw [(monic_X_pow i).natDegree_mul hm, hd, natDegree_X_pow]
  rw [e2]
  refine ⟨(natDegree_C_mul_le _ _).trans hd2.le, ?_⟩
  rw [coeff_C_mul, ← hd2, hm2.coeff_natDegree, mul_one]

section
variable {l m n : ℤ} (hm : |m| ≤ l) (hn : |n| ≤ l)
include hm hn

omit hm hn in
theorem wrange : min (l + n) (l - m) - max 0 (n - m) = l - max |m| |n| := by
  rcases abs_cases m with h | h <;> rcases abs_cases n with h' | h' <;> omega

omit hm hn in
theorem wpoly_degree : (wpoly l m n).natDegree ≤ (l - max |m| |n|).toNat := by
  refine natDegree_sum_le_of_forall_le _ _ fun k hk => ?_
  rw [Finset.mem_Icc] at hk
  refine (natDegree_C_mul_le _ _).trans ((coeff_X_mul _ _).1.trans ?_)
  have := wrange (l := l) (m := m) (n := n)
  omega

theorem wpoly_coeff : (wpoly l m n).coeff (l - max |m| |n|).toNat ≠ 0 := by
  have hr := wrange (l := l) (m := m) (n := n)
  have hM : max |m| |n| ≤ l := max_le hm hn
  have key : (wpoly l m n).coeff (l - max |m| |n|).toNat = (-1) ^ (m - n + min (l + n) (l - m)).toNat *
      ∑ k ∈ Finset.Icc (max 0 (n - m)) (min (l + n) (l - m)), wwt l m n k := by
    unfold wpoly
    rw [finsetSum_coeff, Finset.mul_sum]
    refine Finset.sum_congr rfl fun k hk => ?_
    rw [Finset.mem_Icc] at hk
    have e : (l - max |m| |n|).toNat = (k - max 0 (n - m)).toNat + (min (l + n) (l - m) - k).toNat := by omega
    rw [coeff_C_mul, e, (coeff_X_mul _ _).2]
    have e2 : (m - n + min (l + n) (l - m)).toNat = (m - n + k).toNat + (min (l + n) (l - m) - k).toNat := by omega
    rw [e2, pow_add]; ring
  rw [key]
  refine mul_ne_zero (pow_ne_zero _ (by norm_num)) (ne_of_gt (Finset.sum_pos (fun k _ => wwt_pos l m n k) ?_))
  exact Finset.nonempty_Icc.2 (by omega)

omit hm hn in
theorem wignerd_eq (β : ℝ) : wignerd l m n β = Real.cos (β / 2) ^ |m + n|.toNat * Real.sin (β / 2) ^ |m - n|.toNat *
    (wpoly l m n).eval (Real.sin (β / 2) ^ 2) := by
  unfold wignerd wpoly
  rw [eval_finsetSum, Finset.mul_sum]
  refine Finset.sum_congr rfl fun k hk => ?_
  rw [Finset.mem_Icc] at hk
  rw [eval_mul, eval_C, eval_mul, eval_pow, eval_X, eval_pow, eval_sub, eval_one, eval_X, ← Real.cos_sq', ← pow_mul, ← pow_mul]
  have e1 : (2 * l + n - m - 2 * k).toNat = |m + n|.toNat + 2 * (min (l + n) (l - m) - k).toNat := by
    rcases abs_cases (m + n) with h | h <;> omega
  have e2 : (m - n + 2 * k).toNat = |m - n|.toNat + 2 * (k - max 0 (n - m)).toNat := by
    rcases abs_cases (m - n) with h | h <;> omega
  rw [e1, e2, pow_add, pow_add]; ring

end

theorem wignerd_neg (l m n : ℤ) (β : ℝ) : wignerd l (-m) (-n) β = (-1) ^ (m - n) * wignerd l m n β := by
  unfold wignerd
  rw [Finset.mul_sum]
  refine (Finset.sum_bij' (fun k _ => k + (m - n)) (fun k _ => k - (m - n)) ?_ ?_ ?_ ?_ ?_).symm
  · intro k hk; rw [Finset.mem_Icc] at hk ⊢; omega
  · intro k hk; rw [Finset.mem_Icc] at hk ⊢; omega
  · intro k _; ring
  · intro k _; ring
  · intro k hk
    rw [Finset.mem_Icc] at hk
    have e1 : (2 * l + -n - -m - 2 * (k + (m - n))) = 2 * l + n - m - 2 * k := by ring
    have e2 : (-m - -n + 2 * (k + (m - n))) = m - n + 2 * k := by ring
    have e3 : (-m - -n + (k + (m - n))) = k := by ring
    have e4 : wwt l (-m) (-n) (k + (m - n)) = wwt l m n k := by
      unfold wwt
      have a1 : l + -n - (k + (m - n)) = l - m - k := by ring
      have a2 : k + (m - n) = m - n + k := by ring
      have a3 : l - -m - (k + (m - n)) = l + n - k := by ring
      have a4 : l - -m = l + m := by ring
      have a5 : l - -n = l + n := by ring
      rw [a1, e3, a3, a4, a5, a2, ← sub_eq_add_neg, ← sub_eq_add_neg]
      congr 1
      · congr 1; ring
      · ring
    have e5 : ((-1 : ℝ)) ^ k.toNat = (-1) ^ (m - n) * (-1) ^ (m - n + k).toNat := by
      have h1 : ((-1 : ℝ)) ^ k.toNat = (-1) ^ k := by
        rw [← zpow_natCast, Int.toNat_of_nonneg (by omega)]
      have h2 : ((-1 : ℝ)) ^ (m - n + k).toNat = (-1) ^ (m - n + k) := by
        rw [← zpow_natCast, Int.toNat_of_nonneg (by omega)]
      rw [h1, h2, ← zpow_add₀ (by norm_num), ← add_assoc, zpow_add₀ (by norm_num), (Even.neg_one_zpow ⟨m - n, rfl⟩), one_mul]
    rw [e1, e2, e3, e4, e5]; ring

/-! ## Angles -/

/-- angles at which signals are sampled: `nθ` colatitudes and `nφ` equispaced longitudes -/
structure Grid where
  nθ : ℤ
  θ : ℤ → ℝ
  nφ : ℤ

/-- enough angles for band-limit `L` -/
structure Grid.Enough (g : Grid) (L : ℤ) : Prop where
  inj : ∀ s ∈ Finset.Ico 0 g.nθ, ∀ t ∈ Finset.Ico 0 g.nθ, g.θ s = g.θ t → s = t
  lo : ∀ t ∈ Finset.Ico 0 g.nθ, 0 ≤ g.θ t
  hi : ∀ t ∈ Finset.Ico 0 g.nθ, g.θ t ≤ Real.pi
  all : L ≤ g.nθ
  inner : L - 1 ≤ ((Finset.Ico 0 g.nθ).filter fun t => 0 < g.θ t ∧ g.θ t < Real.pi).card
  phi : 2 * L - 1 ≤ g.nφ

theorem wigner_indep {g : Grid} {L m n : ℤ} (hg : g.Enough L) (hm : |m| < L) (hn : |n| < L) {a : ℤ → ℝ}
    (h : ∀ t ∈ Finset.Ico 0 g.nθ, ∑ l ∈ Finset.Ico (max |m| |n|) L, a l * wignerd l m n (g.θ t) = 0) :
    ∀ l ∈ Finset.Ico (max |m| |n|) L, a l = 0 := by
  set M := max |m| |n| with hM
  have hmM : |m| ≤ M := le_max_left _ _
  have hnM : |n| ≤ M := le_max_right _ _
  have hM0 : 0 ≤ M := (abs_nonneg m).trans hmM
  have hML : M < L := max_lt hm hn
  set Q : ℝ[X] := ∑ l ∈ Finset.Ico M L, C (a l) * wpoly l m n with hQ
  have hdeg : Q.natDegree ≤ (L - 1 - M).toNat := by
    refine natDegree_sum_le_of_forall_le _ _ fun l hl => ?_
    rw [Finset.mem_Ico] at hl
    refine (natDegree_C_mul_le _ _).trans (wpoly_degree.trans ?_)
    omega
  obtain ⟨S, hS, hcard, hne⟩ : ∃ S ⊆ Finset.Ico 0 g.nθ, L - M ≤ (S.card : ℤ) ∧ ∀ t ∈ S,
      Real.cos (g.θ t / 2) ^ |m + n|.toNat * Real.sin (g.θ t / 2) ^ |m - n|.toNat ≠ 0 := by
    rcases hM0.eq_or_lt with h0 | h0
    · refine ⟨Finset.Ico 0 g.nθ, subset_rfl, ?_, fun t _ => ?_⟩
      · have := hg.all
        rw [Int.card_Ico]; omega
      · have h1 : m = 0 := abs_eq_zero.1 (le_antisymm (by omega) (abs_nonneg m))
        have h2 : n = 0 := abs_eq_zero.1 (le_antisymm (by omega) (abs_nonneg n))
        subst h1 h2
        simp
    · refine ⟨_, Finset.filter_subset _ _, (by omega : L - M ≤ L - 1).trans hg.inner, fun t ht => ?_⟩
      rw [Finset.mem_filter] at ht
      obtain ⟨_, h1, h2⟩ := ht
      have c1 : 0 < Real.cos (g.θ t / 2) := Real.cos_pos_of_mem_Ioo ⟨by linarith, by linarith⟩
      have c2 : 0 < Real.sin (g.θ t / 2) := Real.sin_pos_of_pos_of_lt_pi (by linarith) (by linarith)
      positivity
  have hu : Set.InjOn (fun t => Real.sin (g.θ t / 2) ^ 2) S := by
    intro s hs t ht e
    have hs' := hS hs
    have ht' := hS ht
    have a1 := hg.lo s hs'; have a2 := hg.hi s hs'; have a3 := hg.lo t ht'; have a4 := hg.hi t ht'
    have b1 := Real.sin_nonneg_of_nonneg_of_le_pi (x := g.θ s / 2) (by linarith) (by linarith)
    have b2 := Real.sin_nonneg_of_nonneg_of_le_pi (x := g.θ t / 2) (by linarith) (by linarith)
    have e2 : Real.sin (g.θ s / 2) = Real.sin (g.θ t / 2) := (sq_eq_sq₀ b1 b2).1 e
    have e3 := Real.injOn_sin ⟨by linarith, by linarith⟩ ⟨by linarith, by linarith⟩ e2
    exact hg.inj s hs' t ht' (by linarith)
  have hQ0 : Q = 0 := by
    refine eq_zero_of_natDegree_lt_card_of_eval_eq_zero' Q (S.image fun t => Real.sin (g.θ t / 2) ^ 2) ?_ ?_
    · intro x hx
      obtain ⟨t, ht, rfl⟩ := Finset.mem_image.1 hx
      have := h t (hS ht)
      have e : ∑ l ∈ Finset.Ico M L, a l * wignerd l m n (g.θ t) =
          Real.cos (g.θ t / 2) ^ |m + n|.toNat * Real.sin (g.θ t / 2) ^ |m - n|.toNat *
            Q.eval (Real.sin (g.θ t / 2) ^ 2) := by
        rw [hQ, eval_finsetSum, Finset.mul_sum]
        refine Finset.sum_congr rfl fun l hl => ?_
        rw [wignerd_eq, eval_mul, eval_C]; ring
      rw [e] at this
      exact (mul_eq_zero.1 this).resolve_left (hne t ht)
    · rw [Finset.card_image_of_injOn hu]
      omega
  by_contra hcon
  push Not at hcon
  obtain ⟨l₁, hl₁, hal₁⟩ := hcon
  obtain ⟨l, hl, hmax⟩ := ((Finset.Ico M L).filter fun l => a l ≠ 0).exists_max_image id
    ⟨l₁, Finset.mem_filter.2 ⟨hl₁, hal₁⟩⟩
  rw [Finset.mem_filter] at hl
  have hlI := Finset.mem_Ico.1 hl.1
  have hc : Q.coeff (l - M).toNat = a l * (wpoly l m n).coeff (l - M).toNat := by
    rw [hQ, finsetSum_coeff, Finset.sum_eq_single l]
    · rw [coeff_C_mul]
    · intro l' hl' hne'
      rw [coeff_C_mul]
      have hl'I := Finset.mem_Ico.1 hl'
      by_cases h0 : a l' = 0
      · rw [h0, zero_mul]
      · have : l' ≤ l := hmax l' (Finset.mem_filter.2 ⟨hl', h0⟩)
        rw [coeff_eq_zero_of_natDegree_lt, mul_zero]
        have := wpoly_degree (l := l') (m := m) (n := n)
        rw [← hM] at this
        omega
    · exact fun h => absurd hl.1 h
  rw [hQ0, coeff_zero] at hc
  exact mul_ne_zero hl.2 (wpoly_coeff (by omega) (by omega)) hc.symm

/-- the coefficients of a series of Wigner functions of order `m, n` are combinations of its samples -/
theorem exists_dual {g : Grid} {L m n : ℤ} (hg : g.Enough L) (hm : |m| < L) (hn : |n| < L) :
    ∃ q : ℤ → ℤ → ℝ, ∀ l ∈ Finset.Ico (max |m| |n|) L, ∀ l' ∈ Finset.Ico (max |m| |n|) L,
      ∑ t ∈ Finset.Ico 0 g.nθ, q l t * wignerd l' m n (g.θ t) = if l = l' then 1 else 0 := by
  classical
  set I := Finset.Ico (max |m| |n|) L
  set T := Finset.Ico 0 g.nθ
  let F : (I → ℝ) →ₗ[ℝ] (T → ℝ) :=
    { toFun := fun a t => ∑ l : I, a l * wignerd l m n (g.θ t)
      map_add' := fun a b => by ext t; simp [add_mul, Finset.sum_add_distrib]
      map_smul' := fun c a => by ext t; simp [mul_assoc, Finset.mul_sum] }
  have hF : LinearMap.ker F = ⊥ := by
    rw [LinearMap.ker_eq_bot']
    intro a ha
    have := wigner_indep hg hm hn (a := fun l => if h : l ∈ I then a ⟨l, h⟩ else 0) (by
      intro t ht
      have e := congrFun ha ⟨t, ht⟩
      rw [← Finset.sum_coe_sort]
      simpa [F] using e)
    ext l
    simpa using this l l.2
  obtain ⟨G, hG⟩ := F.exists_leftInverse_of_injective hF
  refine ⟨fun l t => if hl : l ∈ I then (if ht : t ∈ T then G (Pi.single ⟨t, ht⟩ 1) ⟨l, hl⟩ else 0) else 0,
    fun l hl l' hl' => ?_⟩
  have e := congrFun (LinearMap.congr_fun hG (Pi.single ⟨l', hl'⟩ 1)) ⟨l, hl⟩
  rw [LinearMap.comp_apply, LinearMap.id_apply] at e
  have eF : F (Pi.single ⟨l', hl'⟩ 1) = ∑ t : T, wignerd l' m n (g.θ t) • Pi.single (M := fun _ => ℝ) t (1 : ℝ) := by
    ext t
    have h1 : F (Pi.single ⟨l', hl'⟩ 1) t = wignerd l' m n (g.θ t) := by
      change ∑ x : I, (Pi.single ⟨l', hl'⟩ 1 : I → ℝ) x * wignerd x m n (g.θ t) = _
      rw [Finset.sum_eq_single ⟨l', hl'⟩] <;> simp +contextual
    rw [h1, Finset.sum_apply, Finset.sum_eq_single t] <;> simp +contextual
  rw [eF, map_sum, Finset.sum_apply] at e
  rw [← Finset.sum_coe_sort]
  have hc : (if l = l' then (1 : ℝ) else 0) = (Pi.single ⟨l', hl'⟩ 1 : I → ℝ) ⟨l, hl⟩ := by
    simp [Pi.single_apply]
  rw [hc, ← e]
  refine Finset.sum_congr rfl fun t _ => ?_
  simp only [hl, dif_pos, Subtype.coe_eta, Finset.coe_mem, map_smul, Pi.smul_apply, smul_eq_mul]
  ring

end S2wav.Sphere
