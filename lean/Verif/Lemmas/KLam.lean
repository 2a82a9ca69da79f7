import Verif.Model.Filters
import Verif.Lemmas.Samples
import Verif.Lemmas.Arrays

/-! # Closed form of the quadrature and of `k_lam` -/

namespace S2wav
open Classical

/-- summation loop -/
theorem sum_loop {M : Type} [AddCommMonoid M] {a b : ℤ} (f : ℤ → M) (s0 : M) {body : M → ℤ → Py M}
    (hbody : ∀ s i, a ≤ i → i < b → body s i = .ok (s + f i)) :
    (pyRange a b).foldlM body s0 = .ok (s0 + ∑ i ∈ Finset.Ico a b, f i) := by
  obtain ⟨s, hs, hP⟩ := range_loop' (a := a) (b := b) (body := body) (s := s0)
    (fun i s => s = s0 + ∑ k ∈ Finset.Ico a i, f k) (by simp)
    (fun i s h1 h2 hP => by
      subst hP
      refine ⟨_, hbody _ i h1 h2, ?_⟩
      rw [add_assoc]
      congr 1
      have : Finset.Ico a (i + 1) = insert i (Finset.Ico a i) := by
        ext x; simp only [Finset.mem_Ico, Finset.mem_insert]; omega
      rw [this, Finset.sum_insert (by simp), add_comm])
  rw [hs, hP]
  congr 3
  ext x; simp only [Finset.mem_Ico]; omega

/-- the affine argument of the bump function -/
noncomputable def sArg (lam t : ℝ) : ℝ := (t - 1 / lam) * (2 * lam / (lam - 1)) - 1

/-- the tiling integrand `exp(-2/(1-s²))/t` as a real function -/
noncomputable def gInt (lam t : ℝ) : ℝ := Real.exp (-2 / (1 - sArg lam t ^ 2)) / t

theorem sArg_bounds {lam t : ℝ} (hlam : 1 < lam) (h1 : 1 / lam < t) (h2 : t < 1) :
    -1 < sArg lam t ∧ sArg lam t < 1 := by
  have hl : 0 < lam - 1 := by linarith
  have hc : 0 < 2 * lam / (lam - 1) := by positivity
  unfold sArg
  constructor
  · have : 0 < (t - 1 / lam) * (2 * lam / (lam - 1)) := mul_pos (by linarith) hc
    linarith
  · have h3 : (t - 1 / lam) * (2 * lam / (lam - 1)) < (1 - 1 / lam) * (2 * lam / (lam - 1)) :=
      mul_lt_mul_of_pos_right (by linarith) hc
    have h4 : (1 - 1 / lam) * (2 * lam / (lam - 1)) = 2 := by
      field_simp
    linarith

theorem gInt_pos {lam t : ℝ} (ht : 0 < t) : 0 < gInt lam t := div_pos (Real.exp_pos _) ht

theorem tiling_integrand_ok {lam t : ℝ} (hlam : 1 < lam) (h1 : 1 / lam < t) (h2 : t < 1) :
    tiling_integrand t lam = .ok (gInt lam t) := by
  have hb := sArg_bounds hlam h1 h2
  have hsq : 1 - sArg lam t ^ 2 ≠ 0 := by nlinarith
  have ht : t ≠ 0 := by
    have : 0 < 1 / lam := by positivity
    linarith
  have hl : lam ≠ 0 := by linarith
  have hl1 : lam - 1 ≠ 0 := by linarith
  unfold sArg at hsq
  simp only [tiling_integrand, pyDiv, if_neg hl, if_neg hl1, Py.bind_ok, if_neg hsq, if_neg ht]
  rfl

/-- does panel `i` of the `n`-panel trapezium rule on `[a, 1]` touch an end point? -/
def touches (lam : ℝ) (n : ℤ) (a : ℝ) (i : ℤ) : Prop :=
  (a + i * ((1 - a) / n) = 1 / lam ∨ a + i * ((1 - a) / n) = 1) ∨
  (a + (i + 1) * ((1 - a) / n) = 1 / lam ∨ a + (i + 1) * ((1 - a) / n) = 1)

/-- closed form of `part_scaling_fn(a, 1.0, n, lam)` -/
noncomputable def quad (lam : ℝ) (n : ℤ) (a : ℝ) : ℝ :=
  ∑ i ∈ Finset.Ico 0 n, if touches lam n a i then 0 else
    (gInt lam (a + i * ((1 - a) / n)) + gInt lam (a + (i + 1) * ((1 - a) / n))) * ((1 - a) / n) / 2

theorem node_bounds {a : ℝ} {n i : ℤ} (ha : a ≤ 1) (h0 : 0 ≤ i) (hn : i ≤ n) (hn1 : 1 ≤ n) :
    a ≤ a + i * ((1 - a) / n) ∧ a + i * ((1 - a) / n) ≤ 1 := by
  have hn' : (0 : ℝ) < n := by exact_mod_cast (by omega : 0 < n)
  have hi : (0 : ℝ) ≤ i := by exact_mod_cast h0
  have hin : (i : ℝ) ≤ n := by exact_mod_cast hn
  have hh : 0 ≤ (1 - a) / n := div_nonneg (by linarith) hn'.le
  constructor
  · nlinarith
  · have : (n : ℝ) * ((1 - a) / n) = 1 - a := by field_simp
    nlinarith

theorem part_scaling_fn_ok {lam a : ℝ} {n : ℤ} (hlam : 1 < lam) (h1 : 1 / lam ≤ a) (h2 : a ≤ 1) (hn : 1 ≤ n) :
    part_scaling_fn a 1 n lam = .ok (quad lam n a) := by
  have hn0 : (n : ℝ) ≠ 0 := by exact_mod_cast (by omega : n ≠ 0)
  have hl : lam ≠ 0 := by linarith
  unfold part_scaling_fn
  simp only [pyDiv, if_neg hn0, if_neg hl, Py.bind_ok]
  by_cases ha : a = 1
  · rw [if_pos ha, quad]
    congr 1
    symm
    refine Finset.sum_eq_zero fun i _ => ?_
    rw [if_pos]
    left; right; rw [ha]; simp
  · rw [if_neg ha]
    rw [sum_loop (f := fun i : ℤ => if touches lam n a i then 0 else
      (gInt lam (a + i * ((1 - a) / n)) + gInt lam (a + (i + 1) * ((1 - a) / n))) * ((1 - a) / n) / 2)]
    · rw [zero_add]; rfl
    · intro s i hi0 hi1
      by_cases ht : touches lam n a i
      · have ht' : ¬ (¬ (a + (i : ℝ) * ((1 - a) / n) = 1 / lam ∨ a + (i : ℝ) * ((1 - a) / n) = 1) ∧
            ¬ (a + ((i : ℝ) + 1) * ((1 - a) / n) = 1 / lam ∨ a + ((i : ℝ) + 1) * ((1 - a) / n) = 1)) := by
          unfold touches at ht; tauto
        rw [if_neg ht', if_pos ht, add_zero]
      · have ht' := ht
        unfold touches at ht'
        push Not at ht'
        rw [if_pos (by push Not; exact ht'), if_neg ht]
        have hb1 := node_bounds (a := a) (n := n) (i := i) h2 hi0 (by omega) hn
        have hb2 := node_bounds (a := a) (n := n) (i := i + 1) h2 (by omega) (by omega) hn
        push_cast at hb2
        rw [tiling_integrand_ok hlam (lt_of_le_of_ne (h1.trans hb1.1) (Ne.symm ht'.1.1))
          (lt_of_le_of_ne hb1.2 ht'.1.2),
          tiling_integrand_ok hlam (lt_of_le_of_ne (h1.trans hb2.1) (Ne.symm ht'.2.1))
          (lt_of_le_of_ne hb2.2 ht'.2.2)]
        rfl

theorem quad_nonneg {lam a : ℝ} {n : ℤ} (hlam : 1 < lam) (h1 : 1 / lam ≤ a) (h2 : a ≤ 1) (hn : 1 ≤ n) :
    0 ≤ quad lam n a := by
  refine Finset.sum_nonneg fun i hi => ?_
  rw [Finset.mem_Ico] at hi
  split_ifs with ht
  · exact le_rfl
  have hn' : (0 : ℝ) < n := by exact_mod_cast (by omega : 0 < n)
  have hb1 := node_bounds (a := a) (n := n) (i := i) h2 hi.1 (by omega) hn
  have hb2 := node_bounds (a := a) (n := n) (i := i + 1) h2 (by omega) (by omega) hn
  push_cast at hb2
  have hpos : 0 < 1 / lam := by positivity
  have g1 := gInt_pos (lam := lam) (t := a + i * ((1 - a) / n)) (by linarith)
  have g2 := gInt_pos (lam := lam) (t := a + (i + 1) * ((1 - a) / n)) (by linarith)
  have hh : 0 ≤ (1 - a) / n := div_nonneg (by linarith) hn'.le
  positivity

theorem quad_one (lam : ℝ) (n : ℤ) : quad lam n 1 = 0 := by
  refine Finset.sum_eq_zero fun i _ => ?_
  rw [if_pos]
  left; right; simp

/-- the quadrature is positive on any proper subinterval with at least three panels -/
theorem quad_pos {lam a : ℝ} {n : ℤ} (hlam : 1 < lam) (h1 : 1 / lam ≤ a) (h2 : a < 1) (hn : 3 ≤ n) :
    0 < quad lam n a := by
  have hn' : (0 : ℝ) < n := by exact_mod_cast (by omega : 0 < n)
  have hn3 : (3 : ℝ) ≤ n := by exact_mod_cast hn
  have hpos : 0 < 1 / lam := by positivity
  have hh : 0 < (1 - a) / n := div_pos (by linarith) hn'
  have hnn : (n : ℝ) * ((1 - a) / n) = 1 - a := by field_simp
  refine Finset.sum_pos' (fun i hi => ?_) ⟨1, by simp; omega, ?_⟩
  · rw [Finset.mem_Ico] at hi
    split_ifs with ht
    · exact le_rfl
    have hb1 := node_bounds (a := a) (n := n) (i := i) h2.le hi.1 (by omega) (by omega)
    have hb2 := node_bounds (a := a) (n := n) (i := i + 1) h2.le (by omega) (by omega) (by omega)
    push_cast at hb2
    have g1 := gInt_pos (lam := lam) (t := a + i * ((1 - a) / n)) (by linarith)
    have g2 := gInt_pos (lam := lam) (t := a + (i + 1) * ((1 - a) / n)) (by linarith)
    positivity
  · have hnt : ¬ touches lam n a 1 := by
      unfold touches
      push_cast
      push Not
      refine ⟨⟨?_, ?_⟩, ?_, ?_⟩
      · apply ne_of_gt; linarith
      · apply ne_of_lt; nlinarith
      · apply ne_of_gt; linarith
      · apply ne_of_lt; nlinarith
    rw [if_neg hnt]
    have g1 := gInt_pos (lam := lam) (t := a + (1 : ℤ) * ((1 - a) / n)) (by push_cast; linarith)
    have g2 := gInt_pos (lam := lam) (t := a + ((1 : ℤ) + 1) * ((1 - a) / n)) (by push_cast; linarith)
    positivity

/-- closed form of the entries of `k_lam` -/
noncomputable def kval (lam : ℝ) (q j l : ℤ) : ℝ :=
  if (l : ℝ) < lam ^ (j - 1) then 1
  else if (l : ℝ) > lam ^ j then 0
  else quad lam q (l / lam ^ j) / quad lam q (1 / lam)

theorem inv_le_one' {lam : ℝ} (hlam : 1 < lam) : 1 / lam < 1 := by
  rw [div_lt_one (by linarith)]; exact hlam

theorem ratio_bounds {lam : ℝ} {j l : ℤ} (hlam : 1 < lam) (h1 : ¬ (l : ℝ) < lam ^ (j - 1)) (h2 : ¬ (l : ℝ) > lam ^ j) :
    1 / lam ≤ l / lam ^ j ∧ l / lam ^ j ≤ 1 := by
  have hp := zpow_pos' hlam j
  have hl : lam ≠ 0 := by linarith
  rw [not_lt] at h1 h2
  constructor
  · rw [le_div_iff₀ hp]
    calc 1 / lam * lam ^ j = lam ^ (j - 1) := by rw [zpow_sub_one₀ hl]; ring
      _ ≤ l := h1
  · rw [div_le_one hp]; exact h2

theorem k_lam_ok {jm : JMax} {L J q : ℤ} {lam : ℝ} (hT : TopScale jm L lam J) (hq : 3 ≤ q) :
    k_lam jm L lam q = .ok (Arr2.of (J + 2) L (kval lam q)) := by
  obtain ⟨hL, hlam, hJ, hJ0, hLJ⟩ := hT
  have hl : lam ≠ 0 := by linarith
  have hn := part_scaling_fn_ok (a := 1 / lam) hlam le_rfl (inv_le_one' hlam).le (by omega : 1 ≤ q)
  have hpos := quad_pos (a := 1 / lam) hlam le_rfl (inv_le_one' hlam) hq
  unfold k_lam
  simp only [hJ, Py.bind_ok, pyDiv, if_neg hl, hn, zeros2]
  rw [if_neg (by omega)]
  simp only [Py.bind_ok]
  rw [rows_loop (f := kval lam q)]
  · congr 1
    exact Arr2.of_congr fun i j h0 h1 _ _ => by rw [if_pos ⟨h0, h1⟩]
  · intro g i hi0 hi1 _
    rw [fillrow_loop (sh := 0) (f := kval lam q i) (i := i)]
    · congr 1
      refine Arr2.of_congr fun i' k h0 h1 h2 h3 => ?_
      have : (i' = i ∧ 0 + 0 ≤ k ∧ k < 0 + L) ↔ i' = i := by omega
      simp only [this, sub_zero]
    · exact hi0
    · exact hi1
    · omega
    · omega
    · intro a l _ _ _ _
      rw [zero_add]
      unfold kval
      by_cases h1 : (l : ℝ) < lam ^ (i - 1)
      · rw [if_pos h1, if_pos h1]
      rw [if_neg h1, if_neg h1]
      by_cases h2 : (l : ℝ) > lam ^ i
      · rw [if_pos h2, if_pos h2]
      rw [if_neg h2, if_neg h2]
      have hb := ratio_bounds hlam h1 h2
      rw [part_scaling_fn_ok hlam hb.1 hb.2 (by omega)]
      simp only [Py.bind_ok, if_neg hpos.ne']

theorem k_lam_jax_eq (jm : JMax) (L : ℤ) (lam : ℝ) (q : ℤ) : k_lam_jax jm L lam q = k_lam jm L lam q := rfl

section
variable {lam : ℝ} {q j l : ℤ}

theorem kval_nonneg (hlam : 1 < lam) (hq : 3 ≤ q) (j l : ℤ) : 0 ≤ kval lam q j l := by
  unfold kval
  split_ifs with h1 h2
  · exact zero_le_one
  · exact le_rfl
  · have hb := ratio_bounds hlam h1 h2
    exact div_nonneg (quad_nonneg hlam hb.1 hb.2 (by omega))
      (quad_pos hlam le_rfl (inv_le_one' hlam) hq).le

theorem kval_below (h : (l : ℝ) < lam ^ (j - 1)) : kval lam q j l = 1 := by
  unfold kval; rw [if_pos h]

theorem kval_above (hlam : 1 < lam) (h : lam ^ j ≤ (l : ℝ)) : kval lam q j l = 0 := by
  unfold kval
  have h1 : ¬ (l : ℝ) < lam ^ (j - 1) := by
    have := zpow_mono' hlam (show j - 1 ≤ j by omega)
    linarith
  rw [if_neg h1]
  split_ifs with h2
  · rfl
  · have : (l : ℝ) = lam ^ j := le_antisymm (not_lt.1 h2) h
    rw [this, div_self (zpow_pos' hlam j).ne', quad_one, zero_div]

theorem kval_edge (hlam : 1 < lam) (hq : 3 ≤ q) (h : (l : ℝ) = lam ^ (j - 1)) : kval lam q j l = 1 := by
  unfold kval
  have hl : lam ≠ 0 := by linarith
  rw [if_neg (by rw [h]; exact lt_irrefl _), if_neg]
  · have : (l : ℝ) / lam ^ j = 1 / lam := by
      rw [h, zpow_sub_one₀ hl]
      have := (zpow_pos' hlam j).ne'
      field_simp
    rw [this, div_self (quad_pos hlam le_rfl (inv_le_one' hlam) hq).ne']
  · rw [h, not_lt]
    exact zpow_mono' hlam (by omega)

theorem kval_le_edge (hlam : 1 < lam) (hq : 3 ≤ q) (h : (l : ℝ) ≤ lam ^ (j - 1)) : kval lam q j l = 1 := by
  rcases h.lt_or_eq with h | h
  · exact kval_below h
  · exact kval_edge hlam hq h

theorem kval_zero (hlam : 1 < lam) (j : ℤ) : kval lam q j 0 = 1 :=
  kval_below (by simpa using zpow_pos' hlam (j - 1))

/-- strictly inside the transition band the entry is positive -/
theorem kval_pos (hlam : 1 < lam) (hq : 3 ≤ q) (h : (l : ℝ) < lam ^ j) : 0 < kval lam q j l := by
  unfold kval
  split_ifs with h1 h2
  · exact zero_lt_one
  · exact absurd h (not_lt.2 h2.le)
  · have hb := ratio_bounds hlam h1 h2
    refine div_pos (quad_pos hlam hb.1 ?_ hq) (quad_pos hlam le_rfl (inv_le_one' hlam) hq)
    rwa [div_lt_one (zpow_pos' hlam j)]

end

end S2wav
