import Verif.Lemmas.FloatFilters
import Verif.Props.RoundedSingleJax

/-! # The JAX filters in single precision with any `lam` for which `k_lam` is accurate

The counterpart of `Lemmas/SingleAxisym`, `Lemmas/SingleDirectional` and the helpers of `Props/RoundedSingleJax`, which treat `lam = 2`.
Used in C131. -/

namespace S2wav.Single.Gen
open Classical

variable {m mx : Libm} {lg : F64 → F64} {jm : JMax} {lam : ℝ} [hlf : Fact (1 < lam)] {L N J J_min : ℤ} {X : ℤ → ℤ → ℝ}

/-- the entries of `k_lam_jax` stored in single precision -/
def SingleK (lam : ℝ) (J L : ℤ) (X : ℤ → ℤ → ℝ) : Prop :=
  ∀ j l, 0 ≤ j → j < J + 2 → 0 ≤ l → l < L → 0 ≤ X j l ∧ |X j l - kval lam 300 j l| ≤ 1 / 2 ^ 22 ∧
    ((l : ℝ) ≤ lam ^ (j - 1) → X j l = 1) ∧ (lam ^ j ≤ l → X j l = 0)

include hlf in
theorem SingleK.le_two {J L : ℤ} {X : ℤ → ℤ → ℝ} (h : SingleK lam J L X) {j l : ℤ} (h0 : 0 ≤ j) (h1 : j < J + 2) (h2 : 0 ≤ l) (h3 : l < L) :
    X j l ≤ 2 := by
  have := (abs_le.1 (h j l h0 h1 h2 h3).2.1).2
  have := S2wav.Gen.kval_le_any (lam := lam) j l
  norm_num at *
  linarith

include hlf in
/-- rounding the entries of `k_lam` to single precision -/
theorem singleK_of {J L : ℤ} {X : ℤ → ℤ → ℝ} (h : S2wav.Gen.FloatK lam J L X) : SingleK lam J L fun j l => rnd (X j l) := by
  intro j l h0 h1 h2 h3
  obtain ⟨a, b, c, d⟩ := h j l h0 h1 h2 h3
  refine ⟨rnd_nonneg a, ?_, fun e => by beta_reduce; rw [c e, rnd_id rep_one], fun e => by beta_reduce; rw [d e, rnd_zero]⟩
  have r := abs_le.1 (rnd_acc' (X j l))
  have k := h.le_two h0 h1 h2 h3
  rw [abs_of_nonneg a] at r
  rw [abs_le] at b ⊢
  norm_num at *
  constructor <;> linarith

include hlf in
/-- the axisymmetric filters in single precision -/
theorem filters_axisym_jax32_ok (hK : S2wav.Gen.KOk m jm lam L J) (hJ : jm L lam = .ok J) (hL : 1 ≤ L) (hL' : L ≤ 2 ^ 53) (hJ1 : J ≤ 1000)
    (h0 : 0 ≤ J_min) (h1 : J_min < J) :
    ∃ X, SingleK lam J L X ∧
      filters_axisym_jax32 m jm L J_min lam = .ok (Arr2.of (J + 1) L fun j l => .fin (psi32 (X (j + 1) l) (X j l)),
        Arr1.of L fun l => .fin (rnd (Real.sqrt (X J_min l)))) := by
  obtain ⟨X0, hX', hX0⟩ := hK
  have hF0 : S2wav.Gen.FloatK lam J L X0 := hX'
  have hX : k_lam_jax32 m jm L lam 300 = .ok (Arr2.of (J + 2) L fun j l => .fin (rnd (X0 j l))) := by
    rw [k_lam_jax32_eq, hX0]
    simp only [Except.map]
    congr 1
    unfold Arr2.map
    simp only [Arr2.of_r, Arr2.of_c]
    refine Arr2.of_congr fun p q a0 a1 a2 a3 => ?_
    rw [Arr2.of_v _ _ _ _ _ ⟨a0, a1, a2, a3⟩]
    refine of_fin' ?_
    have := hF0.le_two a0 a1 a2 a3
    rw [abs_of_nonneg (hF0 _ _ a0 a1 a2 a3).1]; norm_num; linarith
  have hF' := singleK_of hF0
  obtain ⟨X, e⟩ : ∃ X : ℤ → ℤ → ℝ, ∀ j l, rnd (X0 j l) = X j l := ⟨_, fun _ _ => rfl⟩
  have hF : SingleK lam J L X := by simpa only [e] using hF'
  refine ⟨X, hF, ?_⟩
  simp only [e] at hX
  unfold filters_axisym_jax32
  simp only [hJ, Py.bind_ok]
  rw [if_neg (by omega), hX]
  simp only [Py.bind_ok, Arr2.rollUp, Arr2.zip, Arr2.of_r, Arr2.of_c, and_self, if_true, zeros2]
  have hsl : mkSl (J + 2) none (some (-1)) = ⟨0, J + 1, 1⟩ := by
    simp only [mkSl, slBound, if_pos (show (-1 : ℤ) < 0 by norm_num)]
    congr 1
    omega
  rw [if_neg (by omega)]
  have hz : ∀ i j, (Arr2.of (J + 1) L fun _ _ => (0 : F64)).v i j = 0 := fun i j => by
    by_cases h : 0 ≤ i ∧ i < J + 1 ∧ 0 ≤ j ∧ j < L
    · rw [Arr2.of_v _ _ _ _ _ h]
    · rw [Arr2.of_out _ _ _ _ _ h]
  simp only [Py.bind_ok, Arr2.slice, Arr2.of_r, Arr2.of_c, hsl, mkSl_all (show 0 ≤ L by omega), and_self, if_true]
  rw [Arr1.row_ok _ h0 (by simp; omega)]
  simp only [Py.bind_ok, Arr2.map, Arr1.map, Arr2.of_r, Arr2.of_c, Arr1.of_n, hz]
  congr 2
  · refine Arr2.of_congr fun i j h0 h1 h2 h3 => ?_
    rw [Arr2.of_v _ _ _ _ _ ⟨h0, h1, h2, h3⟩, Arr2.of_v _ _ _ _ _ ⟨h0, h1, h2, h3⟩]
    simp only [Sl.at_one, zero_add]
    rw [Arr2.of_v _ _ _ _ _ ⟨h0, by omega, h2, h3⟩, Arr2.of_v _ _ _ _ _ ⟨h0, by omega, h2, h3⟩, Arr2.of_v _ _ _ _ _ ⟨h0, by omega, h2, h3⟩]
    have hm : (i + 1) % (J + 2) = i + 1 := Int.emod_eq_of_lt (by omega) (by omega)
    rw [hm, Arr2.of_v _ _ _ _ _ ⟨by omega, by omega, h2, h3⟩]
    refine psi32_ok ?_ ?_
    · rw [abs_of_nonneg (hF _ _ (by omega) (by omega) h2 h3).1]; exact hF.le_two (by omega) (by omega) h2 h3
    · rw [abs_of_nonneg (hF _ _ (by omega) (by omega) h2 h3).1]; exact hF.le_two (by omega) (by omega) h2 h3
  · refine Arr1.of_congr fun l h2 h3 => ?_
    rw [Arr1.of_v _ _ _ ⟨h2, h3⟩, Arr2.of_v _ _ _ _ _ ⟨h0, by omega, h2, h3⟩]
    exact sqrt32 (hF _ _ h0 (by omega) h2 h3).1 ((hF.le_two h0 (by omega) h2 h3).trans (by norm_num))

include hlf in
/-- entries of `k_lam` at one degree: zero up to its band, one beyond -/
theorem SingleK.column {X : ℤ → ℤ → ℝ} (hX : SingleK lam J L X) {l j0 : ℤ} (hl0 : 0 ≤ l) (hl1 : l < L)
    (h1 : lam ^ (j0 - 1) ≤ l) (h2 : (l : ℝ) < lam ^ j0) :
    (∀ j, 0 ≤ j → j < J + 2 → j < j0 → X j l = 0) ∧ ∀ j, 0 ≤ j → j < J + 2 → j0 < j → X j l = 1 := by
  constructor
  · intro j a b c
    refine (hX j l a b hl0 hl1).2.2.2 ?_
    exact (zpow_le_zpow_right₀ hlf.out.le (by omega)).trans h1
  · intro j a b c
    refine (hX j l a b hl0 hl1).2.2.1 ?_
    exact h2.le.trans (zpow_le_zpow_right₀ hlf.out.le (by omega))

include hlf in
/-- sum of squares of the rounded filters at one degree -/
theorem energy32 {X : ℤ → ℤ → ℝ} (hX : SingleK lam J L X) (hLJ : (L : ℝ) < lam ^ J + 1) (h0 : 0 ≤ J_min) (h1 : J_min < J) {l : ℤ} (hl0 : 0 ≤ l) (hl1 : l < L) :
    ∃ x : ℝ, (x = 1 ∨ ∃ j0, 0 ≤ j0 ∧ j0 < J + 2 ∧ x = X j0 l) ∧
      1 - 1 / 2 ^ 19 ≤ rnd (Real.sqrt (X J_min l)) ^ 2 + ∑ j ∈ Finset.Icc J_min J, psi32 (X (j + 1) l) (X j l) ^ 2 ∧
      rnd (Real.sqrt (X J_min l)) ^ 2 + ∑ j ∈ Finset.Icc J_min J, psi32 (X (j + 1) l) (X j l) ^ 2 ≤ max 1 x + 1 / 2 ^ 19 := by
  have hone : rnd (Real.sqrt 1) = 1 := by rw [Real.sqrt_one, rnd_id rep_one]
  rcases hl0.eq_or_lt with rfl | hl
  · have hc : ∀ j, 0 ≤ j → j < J + 2 → X j 0 = 1 := fun j a b => (hX j 0 a b le_rfl hl1).2.2.1 (by push_cast; exact (zpow_pos (one_pos.trans hlf.out) _).le)
    refine ⟨1, Or.inl rfl, ?_⟩
    rw [hc _ h0 (by omega), hone, Finset.sum_eq_zero, max_self]
    · norm_num
    · intro j hj
      rw [Finset.mem_Icc] at hj
      rw [hc j (by omega) (by omega), hc (j + 1) (by omega) (by omega), psi32_self]; norm_num
  obtain ⟨j0, hj0, b1, b2⟩ := S2wav.Gen.band_exists (lam := lam) (show 1 ≤ l by omega)
  have hjJ : j0 ≤ J := by
    have h3 : (l : ℝ) + 1 ≤ L := by exact_mod_cast hl1
    have h4 : lam ^ (j0 - 1) < lam ^ J := by linarith
    have := (zpow_lt_zpow_iff_right₀ hlf.out).1 h4
    omega
  obtain ⟨c0, c1⟩ := hX.column hl0 hl1 b1 b2
  have hx0 := (hX j0 l (by omega) (by omega) hl0 hl1).1
  have hx2 := hX.le_two (j := j0) (by omega) (by omega) hl0 hl1
  refine ⟨X j0 l, Or.inr ⟨j0, by omega, by omega, rfl⟩, ?_⟩
  set x := X j0 l with hx
  -- the upper part of the band
  have hB : 1 - x - 1 / 2 ^ 20 ≤ psi32 1 x ^ 2 ∧ psi32 1 x ^ 2 ≤ max 0 (1 - x) + 1 / 2 ^ 20 := by
    rcases le_total x 1 with h | h
    · have := abs_le.1 (psi32_sq h (by linarith))
      rw [max_eq_right (by linarith)]
      norm_num at this ⊢
      constructor <;> linarith
    · rw [psi32_neg h, max_eq_left (by linarith)]
      norm_num; linarith
  rcases lt_trichotomy J_min j0 with hc | hc | hc
  · -- both pieces are wavelets
    have hA := abs_le.1 (psi32_sq hx0 (by linarith))
    rw [sub_zero] at hA
    have hsum : ∑ j ∈ Finset.Icc J_min J, psi32 (X (j + 1) l) (X j l) ^ 2 = psi32 x 0 ^ 2 + psi32 1 x ^ 2 := by
      rw [Finset.sum_eq_add_of_mem (j0 - 1) j0 (by rw [Finset.mem_Icc]; omega) (by rw [Finset.mem_Icc]; omega) (by omega)]
      · rw [sub_add_cancel, c0 (j0 - 1) (by omega) (by omega) (by omega), c1 (j0 + 1) (by omega) (by omega) (by omega)]
      · rintro j hj ⟨n1, n2⟩
        rw [Finset.mem_Icc] at hj
        rcases lt_or_gt_of_ne n2 with h | h
        · rw [c0 j (by omega) (by omega) (by omega), c0 (j + 1) (by omega) (by omega) (by omega), psi32_self]; norm_num
        · rw [c1 j (by omega) (by omega) (by omega), c1 (j + 1) (by omega) (by omega) (by omega), psi32_self]; norm_num
    rw [hsum, c0 J_min h0 (by omega) hc, Real.sqrt_zero, rnd_zero]
    rcases le_total x 1 with h | h
    · rw [max_eq_left h]; rw [max_eq_right (by linarith)] at hB
      norm_num at hA hB ⊢
      constructor <;> linarith
    · rw [max_eq_right h, psi32_neg h]
      norm_num at hA ⊢
      constructor <;> linarith
  · have hA := abs_le.1 (sq_rnd_sqrt hx0 (by linarith))
    have hsum : ∑ j ∈ Finset.Icc J_min J, psi32 (X (j + 1) l) (X j l) ^ 2 = psi32 1 x ^ 2 := by
      rw [Finset.sum_eq_single_of_mem j0 (by rw [Finset.mem_Icc]; omega)]
      · rw [c1 (j0 + 1) (by omega) (by omega) (by omega)]
      · intro j hj n
        rw [Finset.mem_Icc] at hj
        rw [c1 j (by omega) (by omega) (by omega), c1 (j + 1) (by omega) (by omega) (by omega), psi32_self]; norm_num
    rw [hsum, hc, ← hx]
    rcases le_total x 1 with h | h
    · rw [max_eq_left h]; rw [max_eq_right (by linarith)] at hB
      norm_num at hA hB ⊢
      constructor <;> linarith
    · rw [max_eq_right h, psi32_neg h]
      norm_num at hA ⊢
      constructor <;> linarith
  · have hsum : ∑ j ∈ Finset.Icc J_min J, psi32 (X (j + 1) l) (X j l) ^ 2 = 0 := by
      refine Finset.sum_eq_zero fun j hj => ?_
      rw [Finset.mem_Icc] at hj
      rw [c1 j (by omega) (by omega) (by omega), c1 (j + 1) (by omega) (by omega) (by omega), psi32_self]; norm_num
    rw [hsum, c1 J_min h0 (by omega) hc, hone]
    exact ⟨by norm_num, by linarith [le_max_left 1 x, show (0 : ℝ) < 1 / 2 ^ 19 by positivity]⟩

include hlf in
theorem SingleK.le_table (hX : SingleK lam J L X) {j l : ℤ} (hj0 : 0 ≤ j) (hj1 : j < J + 2) (hl0 : 0 ≤ l) (hl1 : l < L) :
    X j l ≤ 1.001 + 1 / 2 ^ 22 ∧ ((∀ j l, l < L → kval lam 300 j l ≤ 1) → X j l ≤ 1 + 1 / 2 ^ 22) := by
  have h1 := (abs_le.1 (hX j l hj0 hj1 hl0 hl1).2.1).2
  refine ⟨?_, fun hL => ?_⟩
  · have := S2wav.Gen.kval_le_any (lam := lam) j l
    linarith
  · have := hL j l hl1
    linarith

include hlf in
/-- the total at one degree, by band-limit -/
theorem energy32_bounds (hX : SingleK lam J L X) (hLJ : (L : ℝ) < lam ^ J + 1) (h0 : 0 ≤ J_min) (h1 : J_min < J) {l : ℤ} (hl0 : 0 ≤ l)
    (hl1 : l < L) {S : ℝ} (hS : S = rnd (Real.sqrt (X J_min l)) ^ 2 + ∑ j ∈ Finset.Icc J_min J, psi32 (X (j + 1) l) (X j l) ^ 2) :
    1 - 1 / 2 ^ 19 ≤ S ∧ S ≤ 1.001 + 1 / 2 ^ 18 ∧ ((∀ j l, l < L → kval lam 300 j l ≤ 1) → S ≤ 1 + 1 / 2 ^ 18) := by
  obtain ⟨x, hx, e1, e2⟩ := energy32 hX hLJ h0 h1 hl0 hl1
  rw [← hS] at e1 e2
  have h3 : (1 : ℝ) / 2 ^ 22 + 1 / 2 ^ 19 ≤ 1 / 2 ^ 18 := by norm_num
  refine ⟨e1, ?_, fun hL => ?_⟩
  · have : max 1 x ≤ 1.001 + 1 / 2 ^ 22 := max_le (by norm_num) (by
      rcases hx with rfl | ⟨j0, a, b, rfl⟩
      · norm_num
      · exact (hX.le_table a b hl0 hl1).1)
    linarith
  · have : max 1 x ≤ 1 + 1 / 2 ^ 22 := max_le (by norm_num) (by
      rcases hx with rfl | ⟨j0, a, b, rfl⟩
      · norm_num
      · exact (hX.le_table a b hl0 hl1).2 hL)
    linarith

include hlf in
theorem SingleK.psi_le (hX : SingleK lam J L X) {j l : ℤ} (hj0 : 0 ≤ j) (hj1 : j < J + 1) (hl0 : 0 ≤ l) (hl1 : l < L) :
    psi32 (X (j + 1) l) (X j l) ≤ 2 := by
  have a := hX.le_two (j := j + 1) (by omega) (by omega) hl0 hl1
  have b := (hX j l hj0 (by omega) hl0 hl1).1
  have c := (hX (j + 1) l (by omega) (by omega) hl0 hl1).1
  have d := (abs_le.1 (psi32_near c b a)).2
  have e : max 0 (X (j + 1) l - X j l) ≤ 2 := max_le (by norm_num) (by linarith)
  have f : psi32 (X (j + 1) l) (X j l) ^ 2 ≤ 2 ^ 2 := by
    generalize max 0 (X (j + 1) l - X j l) = q at *
    norm_num at *; linarith
  exact abs_le_of_sq_le_sq' f (by norm_num) |>.2

include hlf in
theorem SingleK.phi_le (hX : SingleK lam J L X) {j l : ℤ} (hj0 : 0 ≤ j) (hj1 : j < J + 1) (hl0 : 0 ≤ l) (hl1 : l < L) :
    rnd (Real.sqrt (X j l)) ≤ 2 := by
  refine rnd_le_two (Real.sqrt_nonneg _) (Real.sqrt_le_iff.2 ⟨by norm_num, ?_⟩)
  have := hX.le_two hj0 (by omega) hl0 hl1
  norm_num; linarith

include hlf in
theorem dirBody32_ok (hs : Special m lg) (hX : SingleK lam J L X) (hL : 1 ≤ L) (hL2 : L ≤ 2 ^ 23) (hN : 1 ≤ N) (hN' : N ≤ 31) (h0 : 0 ≤ J_min) (h1 : J_min < J)
    {ax : Py (Arr2 F64 × Arr1 F64)} {s : Py (Arr2 C64)}
    (hf : ax = .ok (Arr2.of (J + 1) L fun j l => .fin (psi32 (X (j + 1) l) (X j l)), Arr1.of L fun l => .fin (rnd (Real.sqrt (X J_min l)))))
    (ht : s = .ok (Arr2.of L (2 * L - 1) fun el k => C64.ofC (nuC N * ((sig32 m lg N el (k - (L - 1)) : ℝ) : ℂ)))) (spin : ℤ) :
    dirBody32 ax s L spin =
      .ok (Arr3.of (J + 1) L (2 * L - 1) fun j l k => C64.ofC (psiD32 m lg X N |spin| j l (k - (L - 1))),
        Arr1.of L fun l => .fin (phiD32 X J_min |spin| l)) := by
  have hLm : max 0 (L - 0) = L := by omega
  have hel : 0 ≤ |spin| := abs_nonneg spin
  unfold dirBody32
  simp only [hf, ht, Py.bind_ok]
  simp only [Arr1.zip, arange, Arr1.of_n, hLm, bdim_self, Py.bind_ok, Arr2.of_c, Arr2.of_r, ne_eq, not_true_eq_false, if_false,
    Arr1.fill, Arr3.fill, Arr3.of_d, Arr3.of_r, Arr3.of_c, zero_add]
  simp only [mkSl_to' (show 0 ≤ L by omega) hel, mkSl_all (show 0 ≤ J + 1 by omega),
    mkSl_all (show 0 ≤ 2 * L - 1 by omega), Sl.mem_one, zero_add]
  congr 2
  · refine Arr3.of_congr fun j l n h0 h1 h2 h3 h4 h5 => ?_
    rw [Arr3.of_v _ _ _ _ _ _ _ ⟨h0, h1, h2, h3, h4, h5⟩, bix_self h2 h3,
      Arr2.of_v _ _ _ _ _ ⟨h0, h1, h2, h3⟩, Arr2.of_v _ _ _ _ _ ⟨h0, h1, h2, h3⟩,
      Arr2.of_v _ _ _ _ _ ⟨h2, h3, h4, h5⟩, Arr1.of_v _ _ _ ⟨h2, h3⟩]
    unfold psiD32
    by_cases h : l < |spin|
    · rw [if_pos h, if_pos ⟨⟨h0, h1⟩, ⟨h2, lt_min h h3⟩, h4, h5⟩]
      change (⟨.fin 0, .fin 0⟩ : C64) = ⟨.fin _, .fin _⟩
      simp
    · obtain ⟨p1, p2, p3⟩ := prod_near (psi32_nonneg (X (j + 1) l) (X j l)) (hX.psi_le h0 h1 h2 h3) (wfac_rl h2 (by omega)).2.le (wfac_le h2 (by omega))
        (sig32_nonneg (m := m) (lg := lg) N l (n - (L - 1))) (sig32_sq hs hN hN').2
      rw [if_neg h, if_neg (by omega), wfac_ok h2 (by omega), mul_fin, of_fin' (by linarith)]
      exact real_cmul p2
  · refine Arr1.of_congr fun l h2 h3 => ?_
    rw [Arr1.of_v _ _ _ ⟨h2, h3⟩, bix_self h2 h3, Arr1.of_v _ _ _ ⟨h2, h3⟩, Arr1.of_v _ _ _ ⟨h2, h3⟩]
    unfold phiD32
    by_cases h : l < |spin|
    · rw [if_pos h, if_pos ⟨h2, lt_min h h3⟩]; rfl
    · rw [if_neg h, if_neg (by omega), vfac_ok h2 (by omega), mul_fin]
      refine of_fin' ?_
      have a0 := rnd_nonneg (Real.sqrt_nonneg (X J_min l))
      have v0 := (vfac_rl h2 (by omega)).2.le
      rw [abs_of_nonneg (mul_nonneg a0 v0)]
      calc _ ≤ (2 : ℝ) * 2 ^ 12 := mul_le_mul (hX.phi_le h0 (by omega) h2 h3) (vfac_le h2 (by omega)) v0 (by norm_num)
        _ ≤ _ := by norm_num

include hlf in
theorem filters_directional_jax32_ok (hK : S2wav.Gen.KOk m jm lam L J) (hs : Special mx lg) (hJ : jm L lam = .ok J) (hL : 1 ≤ L) (hL2 : L ≤ 2 ^ 23) (hJ2 : J ≤ 1000)
    (hN : 1 ≤ N) (hN' : N ≤ 31) (h0 : 0 ≤ J_min) (h1 : J_min < J) (spin : ℤ) :
    ∃ X, SingleK lam J L X ∧ filters_axisym_jax32 m jm L J_min lam =
        .ok (Arr2.of (J + 1) L fun j l => .fin (psi32 (X (j + 1) l) (X j l)), Arr1.of L fun l => .fin (rnd (Real.sqrt (X J_min l)))) ∧
      filters_directional_jax32 m mx lg jm L N J_min lam spin =
      .ok (Arr3.of (J + 1) L (2 * L - 1) fun j l k => C64.ofC (psiD32 mx lg X N |spin| j l (k - (L - 1))),
        Arr1.of L fun l => .fin (phiD32 X J_min |spin| l)) := by
  obtain ⟨X, hX, hf⟩ := filters_axisym_jax32_ok hK hJ hL (hL2.trans (by norm_num)) hJ2 h0 h1
  refine ⟨X, hX, hf, ?_⟩
  exact dirBody32_ok hs hX hL hL2 hN hN' h0 h1 hf (tiling_direction_jax32_ok hs hL hN hN') spin

include hlf in
theorem psiD32_sq (hX : SingleK lam J L X) (hL2 : L ≤ 2 ^ 23) (hs : Special m lg) (hN : 1 ≤ N) (hN' : N ≤ 31) {elmin j l n : ℤ} (hj0 : 0 ≤ j) (hj1 : j ≤ J)
    (hl0 : 0 ≤ l) (hl1 : l < L) (hel : elmin ≤ l) :
    |8 * Real.pi ^ 2 / (2 * l + 1) * ‖psiD32 m lg X N elmin j l n‖ ^ 2 - psi32 (X (j + 1) l) (X j l) ^ 2 * ‖sdir N l n‖ ^ 2| ≤
      psi32 (X (j + 1) l) (X j l) ^ 2 * ‖sdir N l n‖ ^ 2 * (binS N + 1 / 2 ^ 16) + 1 / 2 ^ 68 := by
  obtain ⟨h1, h2⟩ := wfac_rl hl0 (show l < 2 ^ 23 by omega)
  rw [psiD32_eq]
  exact psiG_sq hs hN hN' hl0 (by omega) (psi32_nonneg _ _) (hX.psi_le hj0 (by omega) hl0 hl1) ⟨h1.mono (by norm_num), h2⟩
    (wfac_le hl0 (by omega)) hel

include hlf in
/-- the scaling function, normalised -/
theorem phiD32_sq (hX : SingleK lam J L X) (hL2 : L ≤ 2 ^ 23) {elmin l : ℤ} (hj0 : 0 ≤ J_min) (hj1 : J_min ≤ J)
    (hl0 : 0 ≤ l) (hl1 : l < L) (hel : elmin ≤ l) :
    |4 * Real.pi / (2 * l + 1) * phiD32 X J_min elmin l ^ 2 - rnd (Real.sqrt (X J_min l)) ^ 2| ≤
      rnd (Real.sqrt (X J_min l)) ^ 2 / 2 ^ 16 + 1 / 2 ^ 68 := by
  have hw := vfac_rl hl0 (by omega)
  have hw1 := vfac_le hl0 (by omega)
  have ho := odd_bounds hl0 (show l < 2 ^ 23 by omega)
  have ha0 := rnd_nonneg (Real.sqrt_nonneg (X J_min l))
  have ha1 := hX.phi_le hj0 (by omega) hl0 hl1
  have hn := hw.1.near (by norm_num)
  unfold phiD32
  rw [if_neg (by omega)]
  have ht : (2 * (l : ℝ) + 1) = ((2 * l + 1 : ℤ) : ℝ) := by push_cast; ring
  rw [ht]
  set t := ((2 * l + 1 : ℤ) : ℝ)
  set a := rnd (Real.sqrt (X J_min l))
  set w := vfac l
  have haw : 0 ≤ a * w := mul_nonneg ha0 hw.2.le
  have haw1 : a * w ≤ 2 ^ 14 := by
    calc a * w ≤ 2 * 2 ^ 12 := mul_le_mul ha1 hw1 hw.2.le (by norm_num)
      _ ≤ _ := by norm_num
  have r := rnd_acc' (a * w)
  rw [abs_of_nonneg haw] at r
  have p1 := sq_near (x := rnd (a * w)) (r.trans (by norm_num; linarith)) haw haw1
  set Y := rnd (a * w) ^ 2
  have hpi3 := Real.pi_gt_three
  have hpi4 := Real.pi_lt_d2
  have hpi0 := Real.pi_pos
  have hg0 : 0 < 4 * Real.pi / t := by have : 0 < t := by linarith
                                       positivity
  have hg1 : 4 * Real.pi / t ≤ 80 := by
    rw [div_le_iff₀ (by linarith)]; norm_num at hpi4; nlinarith
  have hgw : |4 * Real.pi / t * w ^ 2 - 1| ≤ 1 / 2 ^ 18 := by
    have := near_mul hn hg0.le
    have e : t / (4 * Real.pi) * (4 * Real.pi / t) = 1 := by
      have : t ≠ 0 := by linarith
      field_simp
    rw [e, div_mul_eq_mul_div, e, mul_comm] at this
    exact this
  set g := 4 * Real.pi / t
  have hY := near_mul p1 hg0.le
  have hy : (a * w) ^ 2 = a ^ 2 * w ^ 2 := by ring
  rw [hy] at hY
  set G := g * w ^ 2
  have e1 : a ^ 2 * w ^ 2 * g = a ^ 2 * G := by ring
  rw [e1, add_mul, div_mul_eq_mul_div, e1] at hY
  set A := a ^ 2
  have hA0 : 0 ≤ A := by positivity
  have hAS := near_mul hgw hA0
  have hT : 1 / 2 ^ 77 * g ≤ 1 / 2 ^ 70 := by norm_num; linarith
  have x1 : G * A = A * G := by ring
  have x4 : Y * g = g * Y := by ring
  rw [x1, one_mul] at hAS
  rw [x4] at hY
  generalize A * G = q1 at *
  generalize g * Y = q5 at *
  have k1 := abs_le.1 (hY.trans (add_le_add le_rfl hT))
  have k2 := abs_le.1 hAS
  clear hY hAS p1 hgw hn r
  rw [abs_le]
  norm_num at *
  constructor <;> linarith

include hlf in
/-- the frame sum of the single-precision filters -/
theorem frameSumG {a : ℤ → ℤ → ℝ} {w : ℤ → ℝ} (hX : SingleK lam J L X) (hL2 : L ≤ 2 ^ 23) (hJ2 : J ≤ 1000) (hs : Special m lg) (hN : 1 ≤ N) (hN' : N ≤ 31)
    {elmin l : ℤ} (hj0 : 0 ≤ J_min) (hj1 : J_min < J) (hl0 : 0 ≤ l) (hl1 : l < L) (ha0 : ∀ j, J_min ≤ j → j ≤ J → 0 ≤ a j l)
    (ha1 : ∀ j, J_min ≤ j → j ≤ J → a j l ≤ 2) (hz : ∀ j, J_min ≤ j → j ≤ J → l = 0 → a j l = 0)
    (hw : Rl 16 (w l ^ 2) (((2 * l + 1 : ℤ) : ℝ) / 8 / Real.pi ^ 2) ∧ 0 < w l) (hw1 : w l ≤ 2 ^ 12) (hel : elmin ≤ l) {S : ℝ}
    (hS : S = rnd (Real.sqrt (X J_min l)) ^ 2 + ∑ j ∈ Finset.Icc J_min J, a j l ^ 2) :
    |frameSum J_min J L (Arr3.of (J + 1) L (2 * L - 1) fun j l k => psiG m lg a w N elmin j l (k - (L - 1))) (Arr1.of L fun l => phiD32 X J_min elmin l) l - S| ≤
      S * (binS N + 1 / 2 ^ 16) + 1 / 2 ^ 46 := by
  have hE := (binS_bounds N).1
  unfold frameSum
  rw [Arr1.of_v _ _ _ ⟨hl0, hl1⟩, Finset.mul_sum]
  have h1 := phiD32_sq hX hL2 hj0 hj1.le hl0 hl1 hel
  have h2 : |∑ j ∈ Finset.Icc J_min J, 8 * Real.pi ^ 2 / (2 * l + 1) * ∑ k ∈ Finset.Ico 0 (2 * L - 1),
      ‖(Arr3.of (J + 1) L (2 * L - 1) fun j l k => psiG m lg a w N elmin j l (k - (L - 1))).v j l k‖ ^ 2 -
      ∑ j ∈ Finset.Icc J_min J, a j l ^ 2| ≤
      (∑ j ∈ Finset.Icc J_min J, a j l ^ 2) * (binS N + 1 / 2 ^ 16) + 1 / 2 ^ 47 := by
    rw [← Finset.sum_sub_distrib]
    refine (Finset.abs_sum_le_sum_abs _ _).trans ?_
    calc _ ≤ ∑ j ∈ Finset.Icc J_min J, (a j l ^ 2 * (binS N + 1 / 2 ^ 16) + 1 / 2 ^ 57) := by
          refine Finset.sum_le_sum fun j hj => ?_
          rw [Finset.mem_Icc] at hj
          have e : ∑ k ∈ Finset.Ico 0 (2 * L - 1), ‖(Arr3.of (J + 1) L (2 * L - 1) fun j l k => psiG m lg a w N elmin j l (k - (L - 1))).v j l k‖ ^ 2 =
              ∑ k ∈ Finset.Ico 0 (2 * L - 1), ‖psiG m lg a w N elmin j l (k - (L - 1))‖ ^ 2 :=
            Finset.sum_congr rfl fun k hk => by
              rw [Finset.mem_Ico] at hk
              rw [Arr3.of_v _ _ _ _ _ _ _ ⟨by omega, by omega, hl0, hl1, hk.1, hk.2⟩]
          rw [e]
          exact psiG_sum hs hN hN' hL2 hl0 hl1 (ha0 j hj.1 hj.2) (ha1 j hj.1 hj.2) (hz j hj.1 hj.2) hw hw1 hel
      _ = (∑ j ∈ Finset.Icc J_min J, a j l ^ 2) * (binS N + 1 / 2 ^ 16) + ((Finset.Icc J_min J).card : ℝ) * (1 / 2 ^ 57) := by
          rw [Finset.sum_add_distrib, ← Finset.sum_mul, Finset.sum_const, nsmul_eq_mul]
      _ ≤ _ := by
          have hc : ((Finset.Icc J_min J).card : ℝ) ≤ 1024 := by
            rw [Int.card_Icc]
            exact_mod_cast (by omega : (J + 1 - J_min).toNat ≤ 1024)
          generalize ((Finset.Icc J_min J).card : ℝ) = q at *
          norm_num; linarith
  set f := rnd (Real.sqrt (X J_min l)) ^ 2
  have hf0 : 0 ≤ f * binS N := by positivity
  set P := ∑ j ∈ Finset.Icc J_min J, a j l ^ 2
  rw [hS]
  have e : (f + P) * (binS N + 1 / 2 ^ 16) = f * binS N + f / 2 ^ 16 + P * (binS N + 1 / 2 ^ 16) := by ring
  rw [e]
  have k1 := abs_le.1 h1
  have k2 := abs_le.1 h2
  generalize P * (binS N + 1 / 2 ^ 16) = q at *
  rw [abs_le]
  norm_num at *
  constructor <;> linarith

include hlf in
theorem frameSum32 (hX : SingleK lam J L X) (hL2 : L ≤ 2 ^ 23) (hJ2 : J ≤ 1000) (hs : Special m lg) (hN : 1 ≤ N) (hN' : N ≤ 31) {elmin l : ℤ} (hj0 : 0 ≤ J_min)
    (hj1 : J_min < J) (hl0 : 0 ≤ l) (hl1 : l < L) (hel : elmin ≤ l) {S : ℝ}
    (hS : S = rnd (Real.sqrt (X J_min l)) ^ 2 + ∑ j ∈ Finset.Icc J_min J, psi32 (X (j + 1) l) (X j l) ^ 2) :
    |frameSum J_min J L (Arr3.of (J + 1) L (2 * L - 1) fun j l k => psiD32 m lg X N elmin j l (k - (L - 1))) (Arr1.of L fun l => phiD32 X J_min elmin l) l - S| ≤
      S * (binS N + 1 / 2 ^ 16) + 1 / 2 ^ 46 := by
  obtain ⟨h1, h2⟩ := wfac_rl hl0 (show l < 2 ^ 23 by omega)
  rw [psiD32_eq]
  refine frameSumG hX hL2 hJ2 hs hN hN' hj0 hj1 hl0 hl1 (fun j _ _ => psi32_nonneg _ _) (fun j a b => hX.psi_le (by omega) (by omega) hl0 hl1)
    (fun j a b hz => ?_) ⟨h1.mono (by norm_num), h2⟩ (wfac_le hl0 (by omega)) hel hS
  subst hz
  rw [(hX (j + 1) 0 (by omega) (by omega) hl0 hl1).2.2.1 (by push_cast; exact (zpow_pos (one_pos.trans hlf.out) _).le), (hX j 0 (by omega) (by omega) hl0 hl1).2.2.1 (by push_cast; exact (zpow_pos (one_pos.trans hlf.out) _).le), psi32_self]

/-- everything known of the result -/
structure Dir32 (lam : ℝ) (mx : Libm) (lg : F64 → F64) (L N J J_min spin : ℤ) (psi : Arr3 ℂ) (phi : Arr1 ℝ) (X : ℤ → ℤ → ℝ) : Prop where
  k : SingleK lam J L X
  wav : psi = Arr3.of (J + 1) L (2 * L - 1) fun j l k => psiD32 mx lg X N |spin| j l (k - (L - 1))
  scal : phi = Arr1.of L fun l => phiD32 X J_min |spin| l

include hlf in
theorem dir32_exists (hK : S2wav.Gen.KOk m jm lam L J) (hs : Special mx lg) (hT : TopScale jm L lam J) (hL : L ≤ 2 ^ 23) (hJ : J ≤ 1000)
    (hN : 1 ≤ N) (hN' : N ≤ 31) (h0 : 0 ≤ J_min) (h1 : J_min < J) (spin : ℤ) :
    ∃ (psi : Arr3 ℂ) (phi : Arr1 ℝ) (X : ℤ → ℤ → ℝ), filters_directional_jax32 m mx lg jm L N J_min lam spin = .ok (psi.map C64.ofC, phi.map F64.fin) ∧
      Dir32 lam mx lg L N J J_min spin psi phi X := by
  obtain ⟨X, hX, -, hf⟩ := filters_directional_jax32_ok hK hs hT.hJ hT.hL hL hJ hN hN' h0 h1 spin
  refine ⟨_, _, X, ?_, ⟨hX, rfl, rfl⟩⟩
  rw [hf, map_of3, map_of1]

include hlf in
theorem dir32_elim (hK : S2wav.Gen.KOk m jm lam L J) (hs : Special mx lg) (hT : TopScale jm L lam J) (hL : L ≤ 2 ^ 23) (hJ : J ≤ 1000)
    (hN : 1 ≤ N) (hN' : N ≤ 31) (h0 : 0 ≤ J_min) (h1 : J_min < J) {spin : ℤ} {psi : Arr3 ℂ} {phi : Arr1 ℝ}
    (h : filters_directional_jax32 m mx lg jm L N J_min lam spin = .ok (psi.map C64.ofC, phi.map F64.fin)) :
    ∃ X, Dir32 lam mx lg L N J J_min spin psi phi X := by
  obtain ⟨psi', phi', X, h', hd⟩ := dir32_exists hK hs hT hL hJ hN hN' h0 h1 spin
  rw [h] at h'
  simp only [Except.ok.injEq, Prod.mk.injEq] at h'
  rw [← map_ofC_inj h'.1, ← map_fin_inj h'.2] at hd
  exact ⟨X, hd⟩

include hlf in
theorem psiD32_support (hX : SingleK lam J L X) (hN : 1 ≤ N) {elmin j l n : ℤ} (hj0 : 0 ≤ j) (hj1 : j ≤ J) (hl0 : 0 ≤ l) (hl1 : l < L)
    (h : psiD32 m lg X N elmin j l n ≠ 0) :
    elmin ≤ l ∧ lam ^ (j - 1) < l ∧ (l : ℝ) < lam ^ (j + 1) ∧ 1 ≤ l ∧ |n| ≤ l ∧ |n| < N ∧ (N + n) % 2 ≠ 0 := by
  unfold psiD32 at h
  by_cases hl : l < elmin
  · rw [if_pos hl] at h; exact absurd rfl h
  rw [if_neg hl] at h
  have hp : psi32 (X (j + 1) l) (X j l) ≠ 0 := by rintro h0; apply h; rw [h0, zero_mul, rnd_zero, zero_mul, rnd_zero]; simp
  have hs : sig32 m lg N l n ≠ 0 := by rintro h0; apply h; rw [h0, mul_zero, rnd_zero]; simp
  have hc : 1 ≤ l ∧ |n| ≤ gam N l ∧ (N + n) % 2 ≠ 0 := by
    by_contra hc; exact hs (sig32_eq_zero hc)
  have hg := gam_facts hN hc.1
  refine ⟨by omega, ?_, ?_, hc.1, hc.2.1.trans hg.2.2.2.1, by omega, hc.2.2⟩
  · by_contra hk
    have hk := not_lt.1 hk
    apply hp
    rw [(hX j l (by omega) (by omega) hl0 hl1).2.2.1 hk, (hX (j + 1) l (by omega) (by omega) hl0 hl1).2.2.1 (by
      rw [add_sub_cancel_right]; exact hk.trans (zpow_le_zpow_right₀ hlf.out.le (by omega))), psi32_self]
  · by_contra hk
    have hk := not_lt.1 hk
    apply hp
    rw [(hX (j + 1) l (by omega) (by omega) hl0 hl1).2.2.2 hk, (hX j l (by omega) (by omega) hl0 hl1).2.2.2 (by
      exact le_trans (zpow_le_zpow_right₀ hlf.out.le (by omega)) hk), psi32_self]

omit hlf in
theorem phiD32_support (hX : SingleK lam J L X) {elmin l : ℤ} (hj0 : 0 ≤ J_min) (hj1 : J_min ≤ J) (hl0 : 0 ≤ l) (hl1 : l < L)
    (h : phiD32 X J_min elmin l ≠ 0) : elmin ≤ l ∧ (l : ℝ) < lam ^ J_min := by
  unfold phiD32 at h
  by_cases hl : l < elmin
  · rw [if_pos hl] at h; exact absurd rfl h
  rw [if_neg hl] at h
  refine ⟨by omega, ?_⟩
  by_contra hk
  apply h
  rw [(hX J_min l hj0 (by omega) hl0 hl1).2.2.2 (not_lt.1 hk), Real.sqrt_zero, rnd_zero, zero_mul, rnd_zero]

include hlf in
theorem Dir32.support {spin : ℤ} {psi : Arr3 ℂ} {phi : Arr1 ℝ} (hd : Dir32 lam m lg L N J J_min spin psi phi X) (hN : 1 ≤ N) (h0 : 0 ≤ J_min) (h1 : J_min < J) :
    psi.d = J + 1 ∧ psi.r = L ∧ psi.c = 2 * L - 1 ∧ phi.n = L ∧
      (∀ j l n, psi.v j l (L - 1 + n) ≠ 0 →
        |spin| ≤ l ∧ lam ^ (j - 1) < l ∧ (l : ℝ) < lam ^ (j + 1) ∧ |n| ≤ l ∧ |n| < N ∧ (N + n) % 2 ≠ 0) ∧
      (∀ l, phi.v l ≠ 0 → |spin| ≤ l ∧ (l : ℝ) < lam ^ J_min) := by
  rw [hd.wav, hd.scal]
  refine ⟨rfl, rfl, rfl, rfl, fun j l n hne => ?_, fun l hne => ?_⟩
  · by_cases hr : 0 ≤ j ∧ j < J + 1 ∧ 0 ≤ l ∧ l < L ∧ 0 ≤ L - 1 + n ∧ L - 1 + n < 2 * L - 1
    · rw [Arr3.of_v _ _ _ _ _ _ _ hr, add_sub_cancel_left] at hne
      obtain ⟨a, b, c, -, d, e, f⟩ := psiD32_support hd.k hN hr.1 (by omega) hr.2.2.1 hr.2.2.2.1 hne
      exact ⟨a, b, c, d, e, f⟩
    · exact absurd (Arr3.junk _ j l _ hr) hne
  · by_cases hr : 0 ≤ l ∧ l < L
    · rw [Arr1.of_v _ _ _ hr] at hne
      exact phiD32_support hd.k h0 h1.le hr.1 hr.2 hne
    · exact absurd (Arr1.junk _ l hr) hne

include hlf in
theorem psi32_close (hX : SingleK lam J L X) {j l : ℤ} (a : 0 ≤ j) (b : j < J + 1) (c : 0 ≤ l) (d : l < L) :
    |psi32 (X (j + 1) l) (X j l) ^ 2 - psiAx lam j l ^ 2| ≤ 1 / 2 ^ 18 := by
  rw [psiAx_sq]
  obtain ⟨x0, x1, -⟩ := hX (j + 1) l (by omega) (by omega) c d
  obtain ⟨y0, y1, -⟩ := hX j l (by omega) (by omega) c d
  have := psi32_near x0 y0 (hX.le_two (by omega) (by omega) c d)
  have h2 : |max 0 (X (j + 1) l - X j l) - max 0 (kv lam (j + 1) l - kv lam j l)| ≤ 1 / 2 ^ 21 := by
    rw [max_comm 0, max_comm 0]
    refine (abs_max_sub_max_le_abs _ _ 0).trans ?_
    have e : X (j + 1) l - X j l - (kv lam (j + 1) l - kv lam j l) = (X (j + 1) l - kval lam 300 (j + 1) l) - (X j l - kval lam 300 j l) := by
      unfold kv; ring
    rw [e]
    refine (abs_sub _ _).trans ?_
    norm_num at x1 y1 ⊢; linarith
  have h3 : (1 : ℝ) / 2 ^ 19 + 1 / 2 ^ 21 ≤ 1 / 2 ^ 18 := by norm_num
  exact (abs_sub_le _ _ _).trans ((add_le_add this h2).trans h3)

include hlf in
theorem phi32_close (hX : SingleK lam J L X) {l : ℤ} (h0 : 0 ≤ J_min) (h1 : J_min < J + 2) (c : 0 ≤ l) (d : l < L) :
    |rnd (Real.sqrt (X J_min l)) ^ 2 - phiAx lam J_min l ^ 2| ≤ 1 / 2 ^ 18 := by
  rw [phiAx_sq hlf.out]
  obtain ⟨x0, x1, -⟩ := hX J_min l h0 (by omega) c d
  have h2 := hX.le_two h0 (by omega) c d
  have h3 := sq_rnd_sqrt x0 (by linarith)
  change |_ - kval lam 300 J_min l| ≤ _
  rw [abs_le] at *
  norm_num at *
  constructor <;> linarith

include hlf in
theorem Dir32.close {spin : ℤ} {psi psi' : Arr3 ℂ} {phi phi' : Arr1 ℝ} (hd : Dir32 lam m lg L N J J_min spin psi phi X) (hs : Special m lg)
    (hT : TopScale jm L lam J) (hL : L ≤ 2 ^ 23) (hJ : J ≤ 1000) (hN : 1 ≤ N) (hN' : N ≤ 31) (h0 : 0 ≤ J_min) (h1 : J_min < J)
    (h' : filters_directional_jax jm L N J_min lam spin 0 = .ok (psi', phi')) :
    (∃ ν : ℂ, ‖ν‖ = 1 ∧ ∀ j l k, psi.v j l k = ν * ‖psi.v j l k‖ ∧ psi'.v j l k = ν * ‖psi'.v j l k‖) ∧
    (∀ j l k, 0 ≤ l → 8 * Real.pi ^ 2 / (2 * l + 1) * |‖psi.v j l k‖ ^ 2 - ‖psi'.v j l k‖ ^ 2| ≤ if N ≤ 15 then 1 / 2 ^ 15 else 0.0011) ∧
    (∀ l, 0 ≤ phi.v l ∧ 0 ≤ phi'.v l) ∧
    (∀ l, 0 ≤ l → 4 * Real.pi / (2 * l + 1) * |phi.v l ^ 2 - phi'.v l ^ 2| ≤ 1 / 2 ^ 15) := by
  rw [filters_directional_jax_ok hT hN h0 h1] at h'
  simp only [Except.ok.injEq, Prod.mk.injEq] at h'
  rw [← h'.1, ← h'.2, hd.wav, hd.scal]
  have hX := hd.k
  refine ⟨⟨nuC N, nuC_norm N, fun j l k => ?_⟩, fun j l k hl0 => ?_, fun l => ?_, fun l hl0 => ?_⟩
  · by_cases hr : 0 ≤ j ∧ j < J + 1 ∧ 0 ≤ l ∧ l < L ∧ 0 ≤ k ∧ k < 2 * L - 1
    · rw [Arr3.of_v _ _ _ _ _ _ _ hr, Arr3.of_v _ _ _ _ _ _ _ hr]
      constructor
      · unfold psiD32
        split_ifs
        · simp
        · rw [norm_mul, nuC_norm, one_mul, Complex.norm_real, Real.norm_of_nonneg]
          exact rnd_nonneg (mul_nonneg (rnd_nonneg (mul_nonneg (psi32_nonneg _ _) (wfac_rl hr.2.2.1 (by omega)).2.le)) (sig32_nonneg _ _ _))
      · unfold psiDir psiDirOf
        split_ifs
        · simp
        · rw [sfac_zero, Complex.ofReal_one, mul_one]
          unfold sdir
          split_ifs
          · have e : (cpsi l : ℂ) * (psiAx lam j l : ℂ) * (nuC N * ((Real.sqrt (((gam N l).toNat.choose ((gam N l - (k - (L - 1))) / 2).toNat : ℝ) / 2 ^ (gam N l).toNat) : ℝ) : ℂ)) =
                nuC N * ((cpsi l * psiAx lam j l * Real.sqrt (((gam N l).toNat.choose ((gam N l - (k - (L - 1))) / 2).toNat : ℝ) / 2 ^ (gam N l).toNat) : ℝ) : ℂ) := by
              push_cast; ring
            rw [e, norm_mul, nuC_norm, one_mul, Complex.norm_real, Real.norm_of_nonneg]
            refine mul_nonneg (mul_nonneg ?_ ?_) (Real.sqrt_nonneg _)
            · unfold cpsi; have := Real.pi_pos; positivity
            · exact Real.sqrt_nonneg _
          · simp
    · rw [(Arr3.of (J + 1) L (2 * L - 1) _).junk j l k hr, (Arr3.of (J + 1) L (2 * L - 1) _).junk j l k hr]; simp
  · by_cases hr : 0 ≤ j ∧ j < J + 1 ∧ 0 ≤ l ∧ l < L ∧ 0 ≤ k ∧ k < 2 * L - 1
    · rw [Arr3.of_v _ _ _ _ _ _ _ hr, Arr3.of_v _ _ _ _ _ _ _ hr]
      by_cases hl : l < |spin|
      · unfold psiD32 psiDir psiDirOf
        rw [if_pos hl, if_pos hl]; split_ifs <;> norm_num
      have hl' : (0 : ℝ) ≤ l := by exact_mod_cast hl0
      have hpi := Real.pi_pos
      have n1 := psiD32_sq (n := k - (L - 1)) (elmin := |spin|) hX hL hs hN hN' hr.1 (by omega) hl0 hr.2.2.2.1 (by omega)
      have ex : 8 * Real.pi ^ 2 / (2 * l + 1) * ‖psiDir N lam |spin| j l (k - (L - 1))‖ ^ 2 = psiAx lam j l ^ 2 * ‖sdir N l (k - (L - 1))‖ ^ 2 := by
        unfold psiDir psiDirOf
        rw [if_neg hl, sfac_zero, norm_mul, norm_mul, norm_mul, Complex.norm_real, Complex.norm_real, mul_pow, mul_pow, mul_pow, Real.norm_eq_abs,
          Real.norm_eq_abs, sq_abs, sq_abs, cpsi_sq hl0]
        simp
        field_simp
      have hg : 0 ≤ 8 * Real.pi ^ 2 / (2 * l + 1) := by positivity
      rw [← abs_of_nonneg hg, ← abs_mul, mul_sub, ex]
      have hcl := psi32_close hX hr.1 hr.2.1 hr.2.2.1 hr.2.2.2.1
      have hc1 : ‖sdir N l (k - (L - 1))‖ ^ 2 ≤ 1 := by
        by_cases h : 1 ≤ l ∧ |k - (L - 1)| ≤ gam N l ∧ (N + (k - (L - 1))) % 2 ≠ 0
        · exact (sig32_step hs hN hN' h).choose_spec.2.2.2.1
        · rw [sdir_eq_zero h, norm_zero]; norm_num
      have ha1 := hX.psi_le hr.1 (by omega) hl0 hr.2.2.2.1
      have ha0 := psi32_nonneg (X (j + 1) l) (X j l)
      have hA : psi32 (X (j + 1) l) (X j l) ^ 2 ≤ 1.01 := by
        have y0 := (hX j l hr.1 (by omega) hl0 hr.2.2.2.1).1
        have x2 := hX.le_two (j := j + 1) (by omega) (by omega) hl0 hr.2.2.2.1
        have x3 := (hX.le_table (j := j + 1) (by omega) (by omega) hl0 hr.2.2.2.1).1
        have d := (abs_le.1 (psi32_near (hX (j + 1) l (by omega) (by omega) hl0 hr.2.2.2.1).1 y0 x2)).2
        have e : max 0 (X (j + 1) l - X j l) ≤ 1.001 + 1 / 2 ^ 22 := max_le (by norm_num) (by linarith)
        linarith [show (1.001 : ℝ) + 1 / 2 ^ 22 + 1 / 2 ^ 19 ≤ 1.01 by norm_num]
      have hm := near_mul hcl (sq_nonneg ‖sdir N l (k - (L - 1))‖)
      obtain ⟨hE0, hE1, hE2⟩ := binS_bounds N
      set A := psi32 (X (j + 1) l) (X j l) ^ 2
      set c := ‖sdir N l (k - (L - 1))‖ ^ 2
      have hA0 : 0 ≤ A := sq_nonneg _
      have hc0 : 0 ≤ c := sq_nonneg _
      have hAc : A * c ≤ 1.01 := by nlinarith
      have hAc0 : 0 ≤ A * c := mul_nonneg hA0 hc0
      have n2 : A * c * (binS N + 1 / 2 ^ 16) ≤ 1.01 * (binS N + 1 / 2 ^ 16) :=
        mul_le_mul_of_nonneg_right hAc (by positivity)
      have n3 : 1 / 2 ^ 18 * c ≤ 1 / 2 ^ 18 := by linarith
      refine (abs_sub_le _ (A * c) _).trans ((add_le_add n1 hm).trans ?_)
      generalize A * c * (binS N + 1 / 2 ^ 16) = q at *
      refine (add_le_add (add_le_add n2 le_rfl) n3).trans ?_
      split_ifs with h15
      · rw [hE2 h15]; norm_num
      · norm_num at *; linarith
    · rw [(Arr3.of (J + 1) L (2 * L - 1) _).junk j l k hr, (Arr3.of (J + 1) L (2 * L - 1) _).junk j l k hr]; split_ifs <;> norm_num
  · constructor
    · by_cases hr : 0 ≤ l ∧ l < L
      · rw [Arr1.of_v _ _ _ hr]
        unfold phiD32
        split_ifs
        · exact le_rfl
        · exact rnd_nonneg (mul_nonneg (rnd_nonneg (Real.sqrt_nonneg _)) (vfac_rl hr.1 (by omega)).2.le)
      · rw [(Arr1.of L _).junk l hr]
    · by_cases hr : 0 ≤ l ∧ l < L
      · rw [Arr1.of_v _ _ _ hr]
        unfold phiDir
        split_ifs
        · exact le_rfl
        · rw [sfac_zero, mul_one]
          exact mul_nonneg (Real.sqrt_nonneg _) (Real.sqrt_nonneg _)
      · rw [(Arr1.of L _).junk l hr]
  · by_cases hr : 0 ≤ l ∧ l < L
    · rw [Arr1.of_v _ _ _ hr, Arr1.of_v _ _ _ hr]
      by_cases hl : l < |spin|
      · unfold phiD32 phiDir
        rw [if_pos hl, if_pos hl]; norm_num
      have hl' : (0 : ℝ) ≤ l := by exact_mod_cast hl0
      have hpi := Real.pi_pos
      have n1 := phiD32_sq (elmin := |spin|) hX hL h0 h1.le hl0 hr.2 (by omega)
      have ex : 4 * Real.pi / (2 * l + 1) * phiDir lam J_min |spin| 0 l ^ 2 = phiAx lam J_min l ^ 2 := by
        unfold phiDir
        rw [if_neg hl, sfac_zero, mul_one, mul_pow, cphi_sq hl0]
        field_simp
      have hg : 0 ≤ 4 * Real.pi / (2 * l + 1) := by positivity
      rw [← abs_of_nonneg hg, ← abs_mul, mul_sub, ex]
      have hcl := phi32_close hX h0 (by omega) hr.1 hr.2
      have hA : rnd (Real.sqrt (X J_min l)) ^ 2 ≤ 1.01 := by
        have x0 := (hX J_min l h0 (by omega) hr.1 hr.2).1
        have x3 := (hX.le_table h0 (by omega) hl0 hr.2).1
        have d := (abs_le.1 (sq_rnd_sqrt x0 (by norm_num at x3 ⊢; linarith))).2
        norm_num at *; linarith
      refine (abs_sub_le _ _ _).trans ((add_le_add n1 hcl).trans ?_)
      norm_num; linarith
    · rw [(Arr1.of L _).junk l hr, (Arr1.of L _).junk l hr]; norm_num

include hlf in
theorem Dir32.admissible {spin : ℤ} {psi : Arr3 ℂ} {phi : Arr1 ℝ} (hd : Dir32 lam m lg L N J J_min spin psi phi X) (hs : Special m lg)
    (hT : TopScale jm L lam J) (hL : L ≤ 2 ^ 23) (hJ : J ≤ 1000) (hN : 1 ≤ N) (hN' : N ≤ 31) (h0 : 0 ≤ J_min) (h1 : J_min < J)
    {l : ℤ} (hl0 : 0 ≤ l) (hl1 : l < L) (hl : |spin| ≤ l) :
    0.9989 ≤ frameSum J_min J L psi phi l ∧ frameSum J_min J L psi phi l ≤ 1.0021 ∧
    ((∀ j l, l < L → kval lam 300 j l ≤ 1) → frameSum J_min J L psi phi l ≤ 1.0011) ∧
    (N ≤ 15 → 1 - 1 / 2 ^ 15 ≤ frameSum J_min J L psi phi l ∧ frameSum J_min J L psi phi l ≤ 1.001 + 1 / 2 ^ 15) ∧
    (N ≤ 15 → (∀ j l, l < L → kval lam 300 j l ≤ 1) → frameSum J_min J L psi phi l ≤ 1 + 1 / 2 ^ 15) := by
  obtain ⟨s1, s2, s3⟩ := energy32_bounds hd.k hT.hLJ h0 h1 hl0 hl1 rfl
  have hF := frameSum32 (m := m) (lg := lg) (elmin := |spin|) hd.k hL hJ hs hN hN' h0 h1 hl0 hl1 hl rfl
  rw [← hd.wav, ← hd.scal] at hF
  obtain ⟨hE0, hE1, hE2⟩ := binS_bounds N
  set S := rnd (Real.sqrt (X J_min l)) ^ 2 + ∑ j ∈ Finset.Icc J_min J, psi32 (X (j + 1) l) (X j l) ^ 2
  set F := frameSum J_min J L psi phi l
  have hS0 : 0 ≤ S := le_trans (by norm_num) s1
  have k1 : S * (binS N + 1 / 2 ^ 16) ≤ 1.01 * (binS N + 1 / 2 ^ 16) :=
    mul_le_mul_of_nonneg_right (s2.trans (by norm_num)) (by positivity)
  have hF' := abs_le.1 hF
  generalize S * (binS N + 1 / 2 ^ 16) = q at *
  refine ⟨?_, ?_, fun hL => ?_, fun hN => ?_, fun hN hL => ?_⟩
  · norm_num at *; linarith
  · norm_num at *; linarith
  · have := s3 hL
    norm_num at *; linarith
  · rw [hE2 hN] at k1
    norm_num at *; constructor <;> linarith
  · have := s3 hL
    rw [hE2 hN] at k1
    norm_num at *; linarith

include hlf in
theorem filters32_aux {c : Cfg} {q : ℤ → ℤ → ℤ → ℂ} (hL : 1 ≤ c.L) (hlam : c.lam = lam) (hN : 1 ≤ c.N)
    (h0 : 0 ≤ c.J_min) (h1 : c.J_min < J) (hX : SingleK lam J c.L X)
    (hsup : ∀ j l n : ℤ, 0 ≤ j → j ≤ J → 0 ≤ l → l < c.L → q j l n ≠ 0 →
      (lam ^ (j - 1) < l ∧ (l : ℝ) < lam ^ (j + 1)) ∧ |c.spin| ≤ l ∧ 1 ≤ l ∧ |n| ≤ l ∧ |n| < c.N ∧ (c.N + n) % 2 ≠ 0)
    (hconj : c.reality = true → ∀ j l n, q j l (-n) = (-1 : ℂ) ^ n * (starRingEnd ℂ) (q j l n)) (mr : Bool) :
    c.Filters J mr (Arr3.of (J + 1) c.L (2 * c.L - 1) fun j l k => q j l (k - (c.L - 1))) (Arr1.of c.L fun l => phiD32 X c.J_min |c.spin| l) := by
  have hl1 : (1 : ℝ) < c.lam := by rw [hlam]; exact hlf.out
  refine ⟨by rw [Arr3.of_d]; omega, rfl, rfl, rfl, fun j l n hne => ?_, fun l hne => ?_, fun hr j l n => ?_⟩
  · by_cases hr : 0 ≤ j ∧ j < J + 1 ∧ 0 ≤ l ∧ l < c.L ∧ 0 ≤ c.L - 1 + n ∧ c.L - 1 + n < 2 * c.L - 1
    · rw [Arr3.of_v _ _ _ _ _ _ _ hr, add_sub_cancel_left] at hne
      obtain ⟨⟨s1, s2⟩, a, hl1', d, e, f⟩ := hsup j l n hr.1 (by omega) hr.2.2.1 hr.2.2.2.1 hne
      rw [← hlam] at s1 s2
      have hb := LN_j_Nj_bounds hL hl1 hN j mr
      have hLj : l < (LN_j c.L j c.N c.lam mr).1 := by
        rw [LN_j_Lj]
        unfold wav_j_bandlimit
        cases mr
        · simpa using hr.2.2.2.1
        · simp only [if_true, lt_min_iff, Int.lt_ceil]
          refine ⟨s2.trans_le (zpow_mono' hl1 (by split_ifs <;> omega)), hr.2.2.2.1⟩
      have hL0 : (LN_j c.L j c.N c.lam mr).2.2 ≤ l := by
        simp only [LN_j, L0_j]
        cases mr
        · simpa using hr.2.2.1
        · simp only [if_true]
          by_cases hj : j = 0
          · subst hj; simp; exact hl1'
          · simp only [if_neg hj, if_pos (show j ≠ 0 from hj), Int.ceil_le]
            exact s1.le
      have b1 := hb.2.2.1
      have b2 := hb.2.2.2.2
      unfold Cfg.L0 Cfg.Lj Cfg.Nj
      exact ⟨hL0, hLj, by omega, by omega, d, a⟩
    · exact absurd (Arr3.junk _ j l _ hr) hne
  · by_cases hr : 0 ≤ l ∧ l < c.L
    · rw [Arr1.of_v _ _ _ hr] at hne
      obtain ⟨a, b⟩ := phiD32_support hX h0 h1.le hr.1 hr.2 hne
      refine ⟨?_, a⟩
      rw [← hlam] at b
      unfold Cfg.Ls scal_bandlimit
      cases mr
      · simpa using hr.2
      · simp only [if_true, lt_min_iff, Int.lt_ceil]
        exact ⟨b, hr.2⟩
    · exact absurd (Arr1.junk _ l hr) hne
  · by_cases hq : 0 ≤ j ∧ j < J + 1 ∧ 0 ≤ l ∧ l < c.L ∧ 0 ≤ c.L - 1 + n ∧ c.L - 1 + n < 2 * c.L - 1
    · have e1 : c.L - 1 - n - (c.L - 1) = -n := by ring
      rw [Arr3.of_v _ _ _ _ _ _ _ ⟨hq.1, hq.2.1, hq.2.2.1, hq.2.2.2.1, by omega, by omega⟩,
        Arr3.of_v _ _ _ _ _ _ _ hq, e1, add_sub_cancel_left]
      exact hconj hr j l n
    · rw [Arr3.junk _ j l (c.L - 1 + n) hq, Arr3.junk _ j l (c.L - 1 - n) (by rw [Arr3.of_d, Arr3.of_r, Arr3.of_c]; omega)]
      simp

include hlf in
theorem dir32_filters {c : Cfg} {psi : Arr3 ℂ} {phi : Arr1 ℝ} (hs : Special m lg) (hL : 1 ≤ c.L) (hlam : c.lam = lam) (hN : 1 ≤ c.N)
    (h0 : 0 ≤ c.J_min) (h1 : c.J_min < J) (hre : c.reality = true → c.N ≤ 15)
    (hd : Dir32 lam m lg c.L c.N J c.J_min c.spin psi phi X) (mr : Bool) : c.Filters J mr psi phi := by
  have hX := hd.k
  rw [hd.wav, hd.scal]
  refine filters32_aux hL hlam hN h0 h1 hX (fun j l n a1 a2 a3 a4 hne => ?_) (fun hr j l n => psiD32_conj hs hN (hre hr)) mr
  obtain ⟨a, s1, s2, hl1', d, e, f⟩ := psiD32_support hX hN a1 a2 a3 a4 hne
  exact ⟨⟨s1, s2⟩, a, hl1', d, e, f⟩

include hlf in
theorem psiD32_sgl (hs : Special m lg) (hX : SingleK lam J L X) (hL : L ≤ 2 ^ 23) (hN : 1 ≤ N) (hN' : N ≤ 31) {elmin j l n : ℤ} (hj0 : 0 ≤ j) (hj1 : j < J + 1)
    (hl0 : 0 ≤ l) (hl1 : l < L) : Sgl (psiD32 m lg X N elmin j l n).re ∧ Sgl (psiD32 m lg X N elmin j l n).im := by
  unfold psiD32
  split_ifs
  · exact ⟨sgl_zero, sgl_zero⟩
  obtain ⟨-, p2, -⟩ := prod_near (psi32_nonneg (X (j + 1) l) (X j l)) (hX.psi_le hj0 hj1 hl0 hl1) (wfac_rl hl0 (by omega)).2.le (wfac_le hl0 (by omega))
    (sig32_nonneg (m := m) (lg := lg) N l n) (sig32_sq hs hN hN').2
  have h := sgl_rnd (p2.trans (by norm_num))
  unfold nuC
  split_ifs
  · rw [one_mul]; exact ⟨h, sgl_zero⟩
  · rw [Complex.re_mul_ofReal, Complex.im_mul_ofReal, Complex.I_re, Complex.I_im, zero_mul, one_mul]; exact ⟨sgl_zero, h⟩

include hlf in
theorem phiD32_sgl (hX : SingleK lam J L X) (hL : L ≤ 2 ^ 23) {elmin l : ℤ} (hj0 : 0 ≤ J_min) (hj1 : J_min < J + 1) (hl0 : 0 ≤ l) (hl1 : l < L) :
    Sgl (phiD32 X J_min elmin l) := by
  unfold phiD32
  split_ifs
  · exact sgl_zero
  refine sgl_rnd ?_
  have a0 := rnd_nonneg (Real.sqrt_nonneg (X J_min l))
  have v0 := (vfac_rl hl0 (show l < 2 ^ 23 by omega)).2.le
  rw [abs_of_nonneg (mul_nonneg a0 v0)]
  calc _ ≤ (2 : ℝ) * 2 ^ 12 := mul_le_mul (hX.phi_le hj0 hj1 hl0 hl1) (vfac_le hl0 (by omega)) v0 (by norm_num)
    _ ≤ _ := by norm_num

end S2wav.Single.Gen
