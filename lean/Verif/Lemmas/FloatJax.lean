import Verif.Model.IeeeJax
import Verif.Lemmas.FloatDirectional
import Verif.Lemmas.FloatBad

/-! # The JAX filters in double precision against the NumPy ones -/

namespace S2wav
open Classical

variable {m mx : Libm} {lg : F64 → F64} {jm : JMax} {L N J J_min : ℤ} {X : ℤ → ℤ → ℝ}

theorem foldlM_error {α σ : Type} {P : σ → Prop} {er : PyErr} {body : σ → α → Py σ} {l : List α}
    (hb : ∀ s, ∀ x ∈ l, P s → body s x = .error er ∨ ∃ s', body s x = .ok s' ∧ P s') (he : ∃ x ∈ l, ∀ s, P s → body s x = .error er) {s : σ} (hs : P s) :
    l.foldlM body s = .error er := by
  induction l generalizing s with
  | nil => obtain ⟨x, hx, -⟩ := he; simp at hx
  | cons a t ih =>
    rw [List.foldlM_cons]
    rcases hb s a (by simp) hs with h | ⟨s', h, hs'⟩
    · rw [h]; rfl
    · rw [h]
      refine ih (fun s x hx => hb s x (by simp [hx])) ?_ hs'
      obtain ⟨x, hx, hxe⟩ := he
      rcases List.mem_cons.1 hx with rfl | hx
      · rw [hxe s hs] at h; cases h
      · exact ⟨x, hx, hxe⟩

theorem k_lam_jax64_eq : k_lam_jax64 = k_lam64 := rfl

/-- the axisymmetric filters are the same on all inputs -/
theorem filters_axisym_jax64_eq (lam : ℝ) : filters_axisym_jax64 m jm L J_min lam = filters_axisym_vectorised64 m jm L J_min lam := by
  unfold filters_axisym_jax64 filters_axisym_vectorised64
  match hJ : jm L lam with
  | .error _ => rfl
  | .ok J =>
    simp only [Py.bind_ok, k_lam_jax64_eq]
    by_cases hc : J_min ≥ J ∨ J_min < 0
    · rw [if_pos hc, if_pos hc]
    rw [if_neg hc, if_neg hc]
    match hk : k_lam64 m jm L lam 300 with
    | .error _ => rfl
    | .ok k =>
      obtain ⟨-, -, -, -, hr, hcc, -⟩ := k_lam64_shape hJ hk
      have hL : 0 ≤ L := by
        by_contra h
        unfold k_lam64 at hk
        rw [hJ, Py.bind_ok, Py.bind_eq_ok] at hk
        obtain ⟨inv, -, hk⟩ := hk
        rw [Py.bind_eq_ok] at hk
        obtain ⟨nm, -, hk⟩ := hk
        rw [Py.bind_eq_ok] at hk
        obtain ⟨k0, hk0, -⟩ := hk
        rw [zeros2, if_pos (by omega)] at hk0
        cases hk0
      have hsl : mkSl (J + 2) none (some (-1)) = ⟨0, J + 1, 1⟩ := by
        simp only [mkSl, slBound, if_pos (show (-1 : ℤ) < 0 by norm_num)]
        congr 1
        omega
      simp only [Py.bind_ok, Arr2.rollUp, Arr2.zip, Arr2.of_r, Arr2.of_c, and_self, if_true, zeros2]
      rw [if_neg (by omega)]
      simp only [Py.bind_ok, Arr2.slice, Arr2.of_r, Arr2.of_c, hr, hcc, hsl, mkSl_all hL, and_self, if_true]
      have hz : ∀ i j, (Arr2.of (J + 1) L fun _ _ => (0 : F64)).v i j = 0 := fun i j => by
        by_cases h : 0 ≤ i ∧ i < J + 1 ∧ 0 ≤ j ∧ j < L
        · rw [Arr2.of_v _ _ _ _ _ h]
        · rw [Arr2.of_out _ _ _ _ _ h]
      simp only [Arr2.map, Arr2.of_r, Arr2.of_c, hz]

/-- what `tiling_direction` computes at one entry -/
noncomputable def tdir64 (m : Libm) (lg : F64 → F64) (N el n : ℤ) : C64 :=
  if |n| < N ∧ (N + n) % 2 ≠ 0 then
    (if N % 2 ≠ 0 then (⟨.fin 1, .fin 0⟩ : C64) else ⟨.fin 0, .fin 1⟩).mul (.ofReal
      ((binomial_coefficient64 m lg (gam N el) ((F64.ofInt (gam N el - n)).div (.fin 2))).div (.ofInt (2 ^ (gam N el).toNat))).sqrt)
  else 0

theorem nu_jax64 (N : ℤ) : (⟨.ofInt (N % 2), .ofInt ((N % 2 - 1) ^ 2)⟩ : C64) = if N % 2 ≠ 0 then ⟨.fin 1, .fin 0⟩ else ⟨.fin 0, .fin 1⟩ := by
  have h0 : F64.ofInt 0 = .fin 0 := by rw [F64.ofInt_eq (by norm_num)]; norm_num
  have h1 : F64.ofInt 1 = .fin 1 := by rw [F64.ofInt_eq (by norm_num)]; norm_num
  rcases Int.emod_two_eq_zero_or_one N with h | h
  · rw [h, if_neg (by norm_num), h0, show ((0 : ℤ) - 1) ^ 2 = 1 by norm_num, h1]
  · rw [h, if_pos (by norm_num), h1, show ((1 : ℤ) - 1) ^ 2 = 0 by norm_num, h0]

/-- the value of both routines when no denominator is too large -/
theorem tiling_direction64_gen (hL : 1 ≤ L) (hg : ∀ el, 1 ≤ el → el < L → gam N el ≤ 1000) :
    tiling_direction64 m lg L N =
      .ok (Arr2.of L (2 * L - 1) fun el k => if |k - (L - 1)| ≤ el ∧ 1 ≤ el then tdir64 m lg N el (k - (L - 1)) else 0) := by
  unfold tiling_direction64
  simp only [zeros2]
  rw [if_neg (by omega)]
  simp only [Py.bind_ok]
  rw [rows_loop (f := fun el k => if |k - (L - 1)| ≤ el ∧ 1 ≤ el then tdir64 m lg N el (k - (L - 1)) else 0)]
  · congr 1
    refine Arr2.of_congr fun i j h0 h1 _ _ => ?_
    by_cases h : 1 ≤ i
    · rw [if_pos ⟨h, h1⟩]
    · rw [if_neg (by omega), if_neg (by tauto)]
  · intro g el hi0 hi1 hg0
    have hge : (if (N + el) % 2 ≠ 0 then min (N - 1) el else min (N - 1) (el - 1)) = gam N el := rfl
    simp only [hge]
    rw [fillrow_loop (sh := L - 1) (f := fun n => tdir64 m lg N el n) (i := el)]
    · congr 1
      refine Arr2.of_congr fun i' k h0 h1 h2 h3 => ?_
      by_cases hi : i' = el
      · subst hi
        simp only [true_and, if_true]
        split_ifs with h h' h'
        · rfl
        · exact absurd ⟨abs_le.2 ⟨by omega, by omega⟩, hi0⟩ h'
        · have := abs_le.1 h'.1; omega
        · rw [hg0]
      · rw [if_neg (by tauto), if_neg hi]
    · omega
    · omega
    · omega
    · omega
    · intro a n hm0 hm1 _ _
      unfold tdir64
      by_cases hc : |n| < N ∧ (N + n) % 2 ≠ 0
      · rw [if_pos hc, if_pos hc]
        have hp : F64.pdiv (.ofInt (gam N el - n)) (.fin 2) = .ok ((F64.ofInt (gam N el - n)).div (.fin 2)) := by
          rw [F64.pdiv, if_neg (by simp)]
        have e := ofIntPy_pow (n := (gam N el).toNat) (by have := hg el hi0 hi1; omega)
        have e' : F64.ofInt (2 ^ (gam N el).toNat) = .fin (2 ^ (gam N el).toNat) := by
          have := e
          unfold F64.ofIntPy at this
          match h : F64.ofInt (2 ^ (gam N el).toNat) with
          | .fin x => rw [h] at this; injection this
          | .inf => rw [h] at this; cases this
          | .ninf => rw [h] at this; cases this
          | .nan => rw [h] at this; cases this
        rw [hp]
        simp only [Py.bind_ok, e, e']
      · rw [if_neg hc, if_neg hc]

theorem jaxInt_pow {g : ℤ} : jaxInt (2 ^ g.toNat) = if g < 63 then .ok (2 ^ g.toNat) else .error .overflow := by
  unfold jaxInt
  have h0 : (0 : ℤ) < 2 ^ g.toNat := by positivity
  by_cases h : g < 63
  · have : (2 : ℤ) ^ g.toNat < 2 ^ 63 := pow_lt_pow_right₀ (by norm_num) (by omega)
    rw [if_pos h, if_pos ⟨by omega, this⟩]
  · have : (2 : ℤ) ^ 63 ≤ 2 ^ g.toNat := pow_le_pow_right₀ (by norm_num) (by omega)
    rw [if_neg h, if_neg (by omega)]

/-- one iteration of the loop of `tiling_direction_jax` -/
theorem tiling_jax_step (hL : 1 ≤ L) {el : ℤ} (h0 : 1 ≤ el) (h1 : el < L) (s : Arr2 C64) (hr : s.r = L) (hc : s.c = 2 * L - 1) (w : Arr1 C64) (hw : w.n = 2 * el + 1) :
    s.setRow el (mkSl s.c (some (L - 1 - el)) (some (L + el))) w =
      .ok (Arr2.of L (2 * L - 1) fun i k => if i = el ∧ |k - (L - 1)| ≤ el then w.v (k - (L - 1) + el) else s.v i k) := by
  rw [hc, mkSl_mid (by omega) (by omega) (by omega), min_eq_left (by omega)]
  have hmx : max 0 (L + el - (L - 1 - el)) = 2 * el + 1 := by omega
  simp only [hmx, Arr2.setRow, hr, hc, hw, pyIdx_ok (show 0 ≤ el by omega) h1, Py.bind_ok]
  rw [if_pos (show bcast (2 * el + 1) (2 * el + 1) from Or.inl rfl)]
  congr 1
  refine Arr2.of_congr fun i k a0 a1 a2 a3 => ?_
  simp only [Sl.mem_one, Sl.pos_one]
  by_cases h : i = el ∧ |k - (L - 1)| ≤ el
  · have := abs_le.1 h.2
    rw [if_pos h, if_pos ⟨h.1, by omega, by omega⟩, bix, if_neg (by omega)]
    congr 1; ring
  · rw [if_neg h, if_neg]
    rintro ⟨h2, h3, h4⟩
    exact h ⟨h2, abs_le.2 ⟨by omega, by omega⟩⟩

theorem tiling_direction_jax64_gen (hL : 1 ≤ L) (hg : ∀ el, 1 ≤ el → el < L → gam N el < 63) :
    tiling_direction_jax64 mx lg L N =
      .ok (Arr2.of L (2 * L - 1) fun el k => if |k - (L - 1)| ≤ el ∧ 1 ≤ el then tdir64 mx lg N el (k - (L - 1)) else 0) := by
  unfold tiling_direction_jax64
  simp only [zeros2, nu_jax64, gam_jax]
  rw [if_neg (by omega)]
  simp only [Py.bind_ok]
  rw [rows_loop (f := fun el k => if |k - (L - 1)| ≤ el ∧ 1 ≤ el then tdir64 mx lg N el (k - (L - 1)) else 0)]
  · congr 1
    refine Arr2.of_congr fun i j h0 h1 _ _ => ?_
    by_cases h : 1 ≤ i
    · rw [if_pos ⟨h, h1⟩]
    · rw [if_neg (by omega), if_neg (by tauto)]
  · intro g el hi0 hi1 hg0
    rw [jaxInt_pow, if_pos (hg el hi0 hi1), Py.bind_ok, tiling_jax_step hL hi0 hi1 _ rfl rfl _ rfl]
    congr 1
    refine Arr2.of_congr fun i k h0 h1 h2 h3 => ?_
    by_cases hi : i = el
    · subst hi
      simp only [true_and, and_true, if_true]
      by_cases h : |k - (L - 1)| ≤ i
      · have := abs_le.1 h
        rw [if_pos h, if_pos (show |k - (L - 1)| ≤ i ∧ 1 ≤ i from ⟨h, hi0⟩), Arr1.of_v _ _ _ ⟨by omega, by omega⟩, show -i + (k - (L - 1) + i) = k - (L - 1) by ring]
        unfold tdir64
        by_cases hq : |k - (L - 1)| < N ∧ (N + (k - (L - 1))) % 2 ≠ 0
        · have := abs_lt.1 hq.1
          rw [if_pos hq, if_pos (show k - (L - 1) < N ∧ k - (L - 1) > -N ∧ (N + (k - (L - 1))) % 2 = 1 from ⟨by omega, by omega, by omega⟩)]
          rfl
        · rw [if_neg hq, if_neg]
          rintro ⟨q1, q2, q3⟩
          exact hq ⟨abs_lt.2 ⟨by omega, by omega⟩, by omega⟩
      · rw [if_neg h, if_neg (by tauto), Arr2.of_v _ _ _ _ _ ⟨h0, h1, h2, h3⟩, hg0]
    · rw [if_neg (by tauto), if_neg hi, Arr2.of_v _ _ _ _ _ ⟨h0, h1, h2, h3⟩]

theorem tiling_direction_jax64_overflow (hL : 1 ≤ L) {el : ℤ} (h0 : 1 ≤ el) (h1 : el < L) (hg : 63 ≤ gam N el) :
    tiling_direction_jax64 mx lg L N = .error .overflow := by
  unfold tiling_direction_jax64
  simp only [zeros2, nu_jax64, gam_jax]
  rw [if_neg (by omega)]
  simp only [Py.bind_ok]
  refine foldlM_error (P := fun s : Arr2 C64 => s.r = L ∧ s.c = 2 * L - 1) (fun s x hx hs => ?_) ⟨el, mem_pyRange.2 ⟨h0, h1⟩, fun s hs => ?_⟩ ⟨rfl, rfl⟩
  · obtain ⟨x0, x1⟩ := mem_pyRange.1 hx
    rw [jaxInt_pow]
    by_cases h : gam N x < 63
    · right
      rw [if_pos h, Py.bind_ok, tiling_jax_step hL x0 x1 _ hs.1 hs.2 _ rfl]
      exact ⟨_, rfl, rfl, rfl⟩
    · left; rw [if_neg h]; rfl
  · rw [jaxInt_pow, if_neg (by omega)]; rfl

end S2wav
