import Verif.Lemmas.FloatBad
import Verif.Lemmas.FloatAxisym
import Verif.Model.IeeeSamples

/-! # Support of the filters and band-limits, both in double precision -/

namespace S2wav
open Classical

/-- the computed powers `lam ** n` are positive and do not decrease -/
def PowMono (m : Libm) (lam : ℝ) (K : ℤ) (p : ℤ → ℝ) : Prop :=
  (∀ n, -1 ≤ n → n ≤ K → m.pow lam n = .fin (p n) ∧ 0 < p n) ∧ ∀ n, -1 ≤ n → n < K → p n ≤ p (n + 1)

variable {m : Libm} {lam : ℝ} {K : ℤ} {p : ℤ → ℝ}

theorem PowMono.pow (h : PowMono m lam K p) {n : ℤ} (h0 : -1 ≤ n) (h1 : n ≤ K) : m.pyPow (.fin lam) n = .ok (.fin (p n)) :=
  Libm.pyPow_fin (h.1 n h0 h1).1

theorem PowMono.le (h : PowMono m lam K p) {a b : ℤ} (h0 : -1 ≤ a) (h1 : a ≤ b) (h2 : b ≤ K) : p a ≤ p b := by
  obtain ⟨n, rfl⟩ := Int.le.dest h1
  induction n with
  | zero => simp
  | succ n ih =>
    refine (ih (by omega) (by push_cast at h2; omega)).trans ?_
    have := h.2 (a + n) (by omega) (by push_cast at h2; omega)
    rwa [add_assoc] at this

theorem entry64_one (h : PowMono m lam K p) {norm v : F64} {j l : ℤ} (h0 : 0 ≤ j) (h1 : j - 1 ≤ K) (hl : (l : ℝ) < p (j - 1))
    (hv : entry64 m lam 300 norm j l = .ok v) : v = .fin 1 := by
  unfold entry64 at hv
  rw [h.pow (by omega) h1, Py.bind_ok, if_pos (show F64.intLt l (.fin _) from hl)] at hv
  cases hv; rfl

theorem part_one : part_scaling_fn64 m (.fin 1) (.fin 1) 300 (.fin lam) = .ok (.fin 0) := by
  unfold part_scaling_fn64
  have h : F64.ofInt 300 ≠ .fin 0 := by
    rw [F64.ofInt_eq (by norm_num)]
    intro h; injection h with h; norm_num at h
  unfold F64.pdiv
  rw [if_neg h, Py.bind_ok, if_pos (show F64.eq (.fin 1) (.fin 1) from rfl)]

theorem entry64_zero (h : PowMono m lam K p) {c : ℝ} (hc : c ≠ 0) {v : F64} {j l : ℤ} (h0 : 0 ≤ j) (h1 : j ≤ K) (hl0 : 0 ≤ l) (hl1 : l ≤ 2 ^ 53)
    (hl : p j ≤ l) (hv : entry64 m lam 300 (.fin c) j l = .ok v) : v = .fin 0 := by
  have hp := (h.1 j (by omega) h1).2
  have hlo := h.le (a := j - 1) (b := j) (by omega) (by omega) h1
  unfold entry64 at hv
  rw [h.pow (by omega) (by omega), Py.bind_ok, if_neg (show ¬ F64.intLt l (.fin _) from not_lt.2 (hlo.trans hl)), h.pow (by omega) h1, Py.bind_ok] at hv
  split_ifs at hv with hgt
  · cases hv; rfl
  have he : p j = l := le_antisymm hl (not_lt.1 hgt)
  have hne : (F64.fin (p j)) ≠ .fin 0 := by intro h; injection h with h; linarith
  have hq : F64.pdiv (.ofInt l) (.fin (p j)) = .ok (.fin 1) := by
    unfold F64.pdiv
    rw [if_neg hne, F64.ofInt_eq (by rw [abs_of_nonneg hl0]; exact hl1)]
    simp only [F64.div]
    rw [if_neg hp.ne', ← he, div_self hp.ne', F64.of_fin' (by norm_num), rnd_id rep_one]
  rw [hq, Py.bind_ok, part_one, Py.bind_ok] at hv
  simp only [F64.div] at hv
  rw [if_neg hc, zero_div, F64.of_fin' (by norm_num), rnd_zero] at hv
  cases hv; rfl

/-- what `filters_axisym_vectorised` has computed when it returns -/
theorem filters_axisym_vectorised64_entry {jm : JMax} {L J J_min : ℤ} {psi : Arr2 F64} {phi : Arr1 F64} (hJ : jm L lam = .ok J)
    (hL : 1 ≤ L) (h : filters_axisym_vectorised64 m jm L J_min lam = .ok (psi, phi)) :
    ∃ k, k_lam64 m jm L lam 300 = .ok k ∧ 0 ≤ J_min ∧ J_min < J ∧ psi.r = J + 1 ∧ psi.c = L ∧ phi.n = L ∧
      (∀ j l, 0 ≤ j → j ≤ J → 0 ≤ l → l < L → psi.v j l =
        F64.sqrt (if ((k.v (j + 1) l).sub (k.v j l)).isNeg then 0 else (k.v (j + 1) l).sub (k.v j l))) ∧
      (∀ l, 0 ≤ l → l < L → phi.v l = (k.v J_min l).sqrt) := by
  unfold filters_axisym_vectorised64 at h
  simp only [hJ, Py.bind_ok] at h
  split_ifs at h with hc
  rw [Py.bind_eq_ok] at h
  obtain ⟨k, hk, h⟩ := h
  obtain ⟨inv, norm, -, -, hr, hcc, -⟩ := k_lam64_shape hJ hk
  refine ⟨k, hk, by omega, by omega, ?_⟩
  simp only [Arr2.rollUp, Arr2.zip, Arr2.of_r, Arr2.of_c, hr, hcc, and_self, if_true, Py.bind_ok] at h
  have hsl : mkSl (J + 2) none (some (-1)) = ⟨0, J + 1, 1⟩ := by
    simp only [mkSl, slBound, if_pos (show (-1 : ℤ) < 0 by norm_num)]
    congr 1
    omega
  rw [hsl, mkSl_all (by omega), Arr1.row_ok _ (by omega) (by omega)] at h
  simp only [Py.bind_ok] at h
  cases h
  refine ⟨rfl, rfl, ?_, fun i j h0 h1 h2 h3 => ?_, fun l h2 h3 => ?_⟩
  · simp [Arr1.map, hcc]
  · simp only [Arr2.map, Arr2.slice, Arr2.of_r, Arr2.of_c, Sl.at_one, zero_add]
    rw [Arr2.of_v _ _ _ _ _ ⟨h0, by omega, h2, h3⟩, Arr2.of_v _ _ _ _ _ ⟨h0, by omega, h2, h3⟩, Arr2.of_v _ _ _ _ _ ⟨h0, by omega, h2, h3⟩,
      Arr2.of_v _ _ _ _ _ ⟨h0, by omega, h2, h3⟩, Arr2.of_v _ _ _ _ _ ⟨h0, by omega, h2, h3⟩]
    have hm : (i + 1) % (J + 2) = i + 1 := Int.emod_eq_of_lt (by omega) (by omega)
    rw [hm]
  · simp only [Arr1.map, Arr1.of_n]
    rw [Arr1.of_v _ _ _ ⟨h2, by simpa [hcc] using h3⟩, Arr1.of_v _ _ _ ⟨h2, by simpa [hcc] using h3⟩]

end S2wav
