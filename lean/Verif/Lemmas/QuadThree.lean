import Verif.Lemmas.FloatThree
import Verif.Lemmas.QuadFloat4

/-! # The trapezium rule and `k_lam` in double precision for `lam = 3` -/

namespace S2wav
open Classical

/-- the integrand for `lam = 3`, continued by zero to the end points -/
noncomputable def bump3 (t : ℝ) : ℝ := phiD (1 - (3 * t - 2) ^ 2) / t

theorem sArg_three (t : ℝ) : sArg 3 t = 3 * t - 2 := by unfold sArg; ring

theorem gInt_three {t : ℝ} (h1 : 1 / 3 < t) (h2 : t < 1) : gInt 3 t = bump3 t := by
  unfold gInt bump3 phiD
  rw [sArg_three, if_neg]
  push Not
  nlinarith

section
variable {t : ℝ} (h1 : 1 / 3 ≤ t) (h2 : t ≤ 1)
include h1 h2

theorem sq_bound3 : 0 ≤ 1 - (3 * t - 2) ^ 2 := by nlinarith

theorem bump3_bounds : 0 ≤ bump3 t ∧ bump3 t ≤ 3 := by
  have ht : 0 < t := by linarith
  have := phiD_nonneg (1 - (3 * t - 2) ^ 2)
  have := phiD_le_one (1 - (3 * t - 2) ^ 2)
  unfold bump3
  refine ⟨by positivity, ?_⟩
  rw [div_le_iff₀ ht]; linarith

theorem bump3_edge (h3 : t - 1 / 3 ≤ 1 / 400 ∨ 1 - t ≤ 1 / 400) : bump3 t ≤ 1 / 2 ^ 100 := by
  have ht : 0 < t := by linarith
  have hD : 1 - (3 * t - 2) ^ 2 ≤ 2 / 125 := by rcases h3 with h | h <;> nlinarith
  have hphi : phiD (1 - (3 * t - 2) ^ 2) ≤ 1 / 2 ^ 102 := by
    unfold phiD
    split_ifs with h
    · positivity
    · have hD0 := not_le.1 h
      have h5 : -2 / (1 - (3 * t - 2) ^ 2) ≤ -125 := by
        rw [div_le_iff₀ hD0]; linarith
      refine (Real.exp_le_exp.2 h5).trans ?_
      rw [show (-125 : ℝ) = -((125 : ℕ) * 1) by norm_num, Real.exp_neg, Real.exp_nat_mul]
      have h6 : (2 : ℝ) ≤ Real.exp 1 := by have := Real.add_one_le_exp (1 : ℝ); linarith
      have h7 : (2 : ℝ) ^ 125 ≤ Real.exp 1 ^ 125 := by gcongr
      calc (Real.exp 1 ^ 125)⁻¹ ≤ (2 ^ 125)⁻¹ := inv_anti₀ (by positivity) h7
        _ ≤ 1 / 2 ^ 102 := by norm_num
  unfold bump3
  rw [div_le_iff₀ ht]
  calc _ ≤ 1 / 2 ^ 102 := hphi
    _ ≤ 1 / 2 ^ 100 * (1 / 3) := by norm_num
    _ ≤ _ := by gcongr

theorem bump3_lip {x : ℝ} (h3 : 1 / 3 ≤ x) (h4 : x ≤ 1) : |bump3 x - bump3 t| ≤ 81 * |x - t| := by
  have ht : 0 < t := by linarith
  have hx : 0 < x := by linarith
  have hl := phiD_lip (sq_bound3 h3 h4) (sq_bound3 h1 h2)
  have hD : |(1 - (3 * x - 2) ^ 2) - (1 - (3 * t - 2) ^ 2)| ≤ 6 * |x - t| := by
    rw [show (1 - (3 * x - 2) ^ 2) - (1 - (3 * t - 2) ^ 2) = (4 - 3 * x - 3 * t) * 3 * (x - t) by ring, abs_mul]
    gcongr
    rw [abs_le]; constructor <;> linarith
  have e : bump3 x - bump3 t = (phiD (1 - (3 * x - 2) ^ 2) - phiD (1 - (3 * t - 2) ^ 2)) / x
      - phiD (1 - (3 * t - 2) ^ 2) * (x - t) / (x * t) := by
    unfold bump3; field_simp; ring
  rw [e]
  have hp0 := phiD_nonneg (1 - (3 * t - 2) ^ 2)
  have hp1 := phiD_le_one (1 - (3 * t - 2) ^ 2)
  have q1 : |(phiD (1 - (3 * x - 2) ^ 2) - phiD (1 - (3 * t - 2) ^ 2)) / x| ≤ 72 * |x - t| := by
    rw [abs_div, abs_of_pos hx, div_le_iff₀ hx]
    nlinarith [abs_nonneg (x - t)]
  have q2 : |phiD (1 - (3 * t - 2) ^ 2) * (x - t) / (x * t)| ≤ 9 * |x - t| := by
    rw [abs_div, abs_mul, abs_of_nonneg hp0, abs_of_pos (by positivity : 0 < x * t), div_le_iff₀ (by positivity)]
    have : 1 / 9 ≤ x * t := by nlinarith
    nlinarith [abs_nonneg (x - t)]
  calc _ ≤ _ := abs_sub _ _
    _ ≤ 81 * |x - t| := by linarith

end

/-- one panel of the exact rule -/
noncomputable def panel3 (a : ℝ) (i : ℤ) : ℝ :=
  if touches 3 300 a i then 0 else
    (gInt 3 (a + i * ((1 - a) / (300 : ℤ))) + gInt 3 (a + (i + 1) * ((1 - a) / (300 : ℤ)))) * ((1 - a) / (300 : ℤ)) / 2

theorem quad_eq_panels3 (a : ℝ) : quad 3 300 a = ∑ i ∈ Finset.Ico 0 300, panel3 a i := rfl

section
variable {a : ℝ} (h1 : 1 / 3 ≤ a) (h2 : a < 1) {i : ℤ} (hi0 : 0 ≤ i) (hi1 : i < 300)
include h1 h2 hi0 hi1

/-- the panel with the integrand continued by zero, instead of the skipping of panels -/
theorem panel3_near :
    |panel3 a i - (bump3 (a + i * ((1 - a) / (300 : ℤ))) + bump3 (a + (i + 1) * ((1 - a) / (300 : ℤ)))) *
      ((1 - a) / (300 : ℤ)) / 2| ≤ 1 / 2 ^ 100 := by
  have hb1 := node_bounds (a := a) (n := 300) (i := i) h2.le hi0 (by omega) (by omega)
  have hb2 := node_bounds (a := a) (n := 300) (i := i + 1) h2.le (by omega) (by omega) (by omega)
  push_cast at hb1 hb2
  unfold panel3
  push_cast
  set H := (1 - a) / 300 with hH
  have hH0 : 0 ≤ H := by rw [hH]; apply div_nonneg <;> linarith
  have hH1 : H ≤ 1 / 450 := by rw [hH]; linarith
  split_ifs with ht
  · have hedge : (a + i * H - 1 / 3 ≤ 1 / 400 ∨ 1 - (a + i * H) ≤ 1 / 400) ∧
        (a + (i + 1) * H - 1 / 3 ≤ 1 / 400 ∨ 1 - (a + (i + 1) * H) ≤ 1 / 400) := by
      unfold touches at ht
      push_cast at ht
      rw [← hH] at ht
      have e : a + (i + 1) * H = a + i * H + H := by ring
      rw [e] at ht ⊢
      rcases ht with (h | h) | (h | h)
      · exact ⟨.inl (by linarith), .inl (by linarith)⟩
      · exact ⟨.inr (by linarith), .inr (by linarith)⟩
      · exact ⟨.inl (by linarith), .inl (by linarith)⟩
      · exact ⟨.inr (by linarith), .inr (by linarith)⟩
    have g1 := bump3_edge (h1.trans hb1.1) hb1.2 hedge.1
    have g2 := bump3_edge (h1.trans hb2.1) hb2.2 hedge.2
    have g3 := (bump3_bounds (h1.trans hb1.1) hb1.2).1
    have g4 := (bump3_bounds (h1.trans hb2.1) hb2.2).1
    have g5 : (bump3 (a + i * H) + bump3 (a + (i + 1) * H)) * H ≤ (1 / 2 ^ 100 + 1 / 2 ^ 100) * 1 := by
      gcongr; linarith
    rw [zero_sub, abs_neg, abs_of_nonneg (by positivity)]
    linarith
  · unfold touches at ht
    push Not at ht
    push_cast at ht
    rw [← hH] at ht
    rw [gInt_three (lt_of_le_of_ne (h1.trans hb1.1) (Ne.symm ht.1.1)) (lt_of_le_of_ne hb1.2 ht.1.2),
      gInt_three (lt_of_le_of_ne (h1.trans hb2.1) (Ne.symm ht.2.1)) (lt_of_le_of_ne hb2.2 ht.2.2), sub_self, abs_zero]
    positivity

theorem panel3_bounds : 0 ≤ panel3 a i ∧ panel3 a i ≤ 1 / 150 := by
  have hb1 := node_bounds (a := a) (n := 300) (i := i) h2.le hi0 (by omega) (by omega)
  have hb2 := node_bounds (a := a) (n := 300) (i := i + 1) h2.le (by omega) (by omega) (by omega)
  push_cast at hb1 hb2
  unfold panel3
  push_cast
  set H := (1 - a) / 300 with hH
  have hH0 : 0 ≤ H := by rw [hH]; apply div_nonneg <;> linarith
  have hH1 : H ≤ 1 / 450 := by rw [hH]; linarith
  split_ifs with ht
  · constructor <;> norm_num
  · unfold touches at ht
    push Not at ht
    push_cast at ht
    rw [← hH] at ht
    rw [gInt_three (lt_of_le_of_ne (h1.trans hb1.1) (Ne.symm ht.1.1)) (lt_of_le_of_ne hb1.2 ht.1.2),
      gInt_three (lt_of_le_of_ne (h1.trans hb2.1) (Ne.symm ht.2.1)) (lt_of_le_of_ne hb2.2 ht.2.2)]
    have g3 := bump3_bounds (h1.trans hb1.1) hb1.2
    have g4 := bump3_bounds (h1.trans hb2.1) hb2.2
    constructor
    · have := g3.1; have := g4.1; positivity
    · have : (bump3 (a + i * H) + bump3 (a + (i + 1) * H)) * H ≤ (3 + 3) * (1 / 450) := by
        have := g3.1; have := g4.1
        gcongr; exact g3.2; exact g4.2
      linarith

end

theorem panels3_bounds {a : ℝ} (h1 : 1 / 3 ≤ a) (h2 : a < 1) {i : ℤ} (hi0 : 0 ≤ i) (hi1 : i ≤ 300) :
    0 ≤ ∑ k ∈ Finset.Ico 0 i, panel3 a k ∧ ∑ k ∈ Finset.Ico 0 i, panel3 a k ≤ 2 := by
  have hk : ∀ k ∈ Finset.Ico 0 i, 0 ≤ panel3 a k ∧ panel3 a k ≤ 1 / 150 := fun k hk => by
    rw [Finset.mem_Ico] at hk
    exact panel3_bounds h1 h2 hk.1 (by omega)
  refine ⟨Finset.sum_nonneg fun k h => (hk k h).1, ?_⟩
  refine (Finset.sum_le_card_nsmul _ _ (1 / 150) fun k h => (hk k h).2).trans ?_
  rw [Int.card_Ico, nsmul_eq_mul]
  have : (((i - 0).toNat : ℕ) : ℝ) ≤ 300 := by exact_mod_cast (by omega : (i - 0).toNat ≤ 300)
  linarith

theorem rep_three : Rep (3 : ℝ) := by have := rep_int (n := 3) (by norm_num); push_cast at this; exact this

theorem inv_three64 : F64.pdiv (.fin 1) (.fin 3) = .ok (.fin (rnd (1 / 3))) := by
  rw [F64.pdiv_fin (by norm_num), F64.of_fin' (by rw [abs_of_pos] <;> norm_num)]

theorem slope_three64 : F64.pdiv ((F64.fin 2).mul (.fin 3)) ((F64.fin 3).sub (.fin 1)) = .ok (.fin 3) := by
  have r6 : Rep (6 : ℝ) := by have := rep_int (n := 6) (by norm_num); push_cast at this; exact this
  rw [F64.mul_fin, F64.sub_fin, show (2 : ℝ) * 3 = 6 by norm_num, show (3 : ℝ) - 1 = 2 by norm_num,
    F64.of_rep r6 (by rw [abs_of_pos] <;> norm_num), F64.of_rep rep_two (by rw [abs_of_pos] <;> norm_num),
    F64.pdiv_fin (by norm_num), show (6 : ℝ) / 2 = 3 by norm_num, F64.of_rep rep_three (by rw [abs_of_pos] <;> norm_num)]

/-- the argument of the bump at a double in `(1/3, 1)`, away from 1/3 -/
theorem sarg_three {x : ℝ} (hr : Rep x) (h1 : 1 / 3 + 1 / 10000 ≤ x) (h2 : x < 1) :
    ∃ s, (((F64.fin x).sub (.fin (rnd (1 / 3)))).mul (.fin 3)).sub (.fin 1) = .fin s ∧ |s| ≤ 1 - 1 / 2 ^ 51 ∧ |s - (3 * x - 2)| ≤ 1 / 2 ^ 50 := by
  have hb : ∀ y : ℝ, -4 ≤ y → y ≤ 4 → |y| ≤ 4 * 2 ^ 53 := fun y ha hb => by
    rw [abs_le]; constructor <;> norm_num <;> linarith
  rw [three_inv]
  set v : ℝ := 6004799503160661 / 18014398509481984 with hv
  have hx1 : x ≤ 1 - 1 / 2 ^ 53 := by
    obtain ⟨k, hk⟩ := rep_mult (E := -2) hr (by rw [abs_of_nonneg (by linarith)]; norm_num; linarith)
    have e : (2 : ℝ) ^ (-2 - 52 : ℤ) = 1 / 2 ^ 54 := by norm_num
    rw [e] at hk
    rcases le_or_gt (1 / 2) x with hx | hx
    · obtain ⟨k, hk, -⟩ := half_rep hr hx
      have : k < 2 ^ 53 := by
        have : (k : ℝ) < 2 ^ 53 := by rw [hk, div_lt_one (by positivity)] at h2; exact h2
        exact_mod_cast this
      have : (k : ℝ) ≤ 2 ^ 53 - 1 := by exact_mod_cast (by omega : k ≤ 2 ^ 53 - 1)
      rw [hk, div_le_iff₀ (by positivity)]
      norm_num at this ⊢
      linarith
    · norm_num; linarith
  have hxv0 : 0 ≤ x - v := by rw [hv]; linarith
  have a1 := abs_le.1 (rnd_acc' (x - v))
  rw [abs_of_nonneg hxv0] at a1
  have hu0 := rnd_nonneg hxv0
  -- the difference, ties included
  have hu1 : rnd (x - v) ≤ 6004799503160660 / 2 ^ 53 := by
    have hz : Rep (6004799503160660 / 2 ^ 53 : ℝ) := by
      have := rep_div (k := 6004799503160660) 53 (by norm_num) (by norm_num); push_cast at this; exact this
    rcases le_or_gt (x - v) (6004799503160660 / 2 ^ 53) with h | h
    · exact rnd_le hz h
    · refine le_of_eq ?_
      rw [rnd_eval_even 6004799503160660 (-53) (by norm_num) (by norm_num) (by norm_num at h ⊢; linarith) (by rw [hv]; norm_num; linarith)
        (by norm_num at h ⊢; linarith) (by rw [hv]; norm_num at hx1 ⊢; linarith)]
      norm_num
  set u := rnd (x - v) with hu
  have a2 := abs_le.1 (rnd_acc' (u * 3))
  rw [abs_of_nonneg (by linarith : 0 ≤ u * 3)] at a2
  have hw0 := rnd_nonneg (show 0 ≤ u * 3 by linarith)
  have hw1 : rnd (u * 3) ≤ 2 - 1 / 2 ^ 51 := by
    have hz : Rep (2 - 1 / 2 ^ 51 : ℝ) := by
      have := rep_div (k := 2 ^ 52 - 1) 51 (by norm_num) (by norm_num); push_cast at this
      convert this using 1; norm_num
    refine rnd_le hz ?_
    norm_num at hu1 ⊢; linarith
  set w := rnd (u * 3) with hw
  have a3 := abs_le.1 (rnd_acc' (w - 1))
  have hwa : |w - 1| ≤ 1 := by rw [abs_le]; norm_num at hw1 ⊢; constructor <;> linarith
  have hs1 : rnd (w - 1) ≤ 1 - 1 / 2 ^ 51 := by
    have hz : Rep (1 - 1 / 2 ^ 51 : ℝ) := by
      have := rep_div (k := 2 ^ 51 - 1) 51 (by norm_num) (by norm_num); push_cast at this
      convert this using 1; norm_num
    refine rnd_le hz ?_
    norm_num at hw1 ⊢; linarith
  have hsacc : |rnd (w - 1) - (3 * x - 2)| ≤ 1 / 2 ^ 50 := by
    rw [abs_le]
    rw [hv] at a1
    norm_num at a1 a2 a3 hwa hu1 hw1 ⊢
    constructor <;> linarith
  refine ⟨rnd (w - 1), ?_, ?_, hsacc⟩
  · rw [F64.sub_fin, F64.of_fin' (hb _ (by linarith) (by rw [hv]; linarith)), F64.mul_fin,
      F64.of_fin' (hb _ (by linarith) (by norm_num at hu1; linarith)), F64.sub_fin, F64.of_fin' (hb _ (by linarith) (by norm_num at hw1; linarith))]
  · have := abs_le.1 hsacc
    rw [abs_le]
    norm_num at this hs1 ⊢
    constructor <;> linarith

variable {m : Libm} (hm : m.Ok)
include hm

/-- the exponential in the integrand -/
theorem exp_tail64 {s : ℝ} (hsb : |s| ≤ 1 - 1 / 2 ^ 51) :
    ∃ y d e w, m.pyPow (.fin s) 2 = .ok (.fin y) ∧ F64.of (1 - y) = .fin d ∧ 0 < d ∧ F64.of (-2 / d) = .fin e ∧ m.exp e = .fin w ∧
      0 ≤ w ∧ w ≤ 1 ∧ |w - phiD (1 - s ^ 2)| ≤ 1 / 2 ^ 48 := by
  have hb : ∀ y : ℝ, -4 ≤ y → y ≤ 4 → |y| ≤ 4 * 2 ^ 53 := fun y ha hb => by
    rw [abs_le]; constructor <;> norm_num <;> linarith
  obtain ⟨y, hy, hya⟩ := hm.pow_two s (by linarith [show (0 : ℝ) < 1 / 2 ^ 51 by positivity])
  have hpow : m.pyPow (.fin s) 2 = .ok (.fin y) := Libm.pyPow_fin hy
  have hs2 : s ^ 2 ≤ 1 - 1 / 2 ^ 50 + 1 / 2 ^ 102 := by
    rw [← sq_abs]
    have h0 := abs_nonneg s
    calc |s| ^ 2 ≤ (1 - 1 / 2 ^ 51) ^ 2 := by gcongr
      _ = _ := by norm_num
  have hs0 := sq_nonneg s
  have hya' : |y - s ^ 2| ≤ s ^ 2 / 2 ^ 52 + 1 / 2 ^ 110 := by
    refine hya.trans (add_le_add ?_ tiny_le)
    rw [show (-52 : ℤ) = -((52 : ℕ) : ℤ) by norm_num, zpow_neg, zpow_natCast]
    exact le_of_eq (by ring)
  have hya2 := abs_le.1 hya'
  -- the denominator stays away from zero
  have hd1 : 1 / 2 ^ 51 ≤ 1 - y := by norm_num at hya2 hs2 ⊢; linarith
  have hd2 : 1 - y ≤ 1 + 1 / 2 ^ 100 := by norm_num at hya2 hs2 ⊢; linarith
  set d := rnd (1 - y) with hd
  have hof : F64.of (1 - y) = .fin d := F64.of_fin' (hb _ (by norm_num at hd1 ⊢; linarith) (by norm_num at hd2 ⊢; linarith))
  have hd3 : 1 / 2 ^ 51 ≤ d := by
    have hr51 : Rep ((1 : ℝ) / 2 ^ 51) := by
      have := rep_div (k := 1) 51 (by norm_num) (by norm_num); push_cast at this; exact this
    exact le_rnd hr51 hd1
  have hd4 : d ≤ 2 := rnd_le rep_two (by norm_num at hd2 ⊢; linarith)
  have hd0 : 0 < d := lt_of_lt_of_le (by positivity) hd3
  have hdd := abs_le.1 (rnd_acc' (1 - y))
  rw [abs_of_nonneg (le_trans (by positivity) hd1)] at hdd
  have hdD : |d - (1 - s ^ 2)| ≤ 1 / 2 ^ 51 := by
    rw [abs_le]; norm_num at hdd hya2 hs2 hd2 ⊢; constructor <;> linarith
  -- the exponent
  have hz1 : 1 ≤ 2 / d := by rw [le_div_iff₀ hd0]; linarith
  have hz2 : 2 / d ≤ 2 ^ 52 := by
    rw [div_le_iff₀ hd0]; norm_num at hd3 ⊢; linarith
  set e := rnd (-2 / d) with he
  have hofe : F64.of (-2 / d) = .fin e := F64.of_fin' (by
    rw [abs_div, abs_of_pos hd0]
    norm_num at hz2 ⊢; linarith)
  have hre : Rep (-1 : ℝ) := rep_one.neg
  have he0 : e ≤ -1 := rnd_le hre (by rw [neg_div]; linarith)
  have hee := abs_le.1 (rnd_acc' (-2 / d))
  have hz0 : |(-2 : ℝ) / d| = 2 / d := by rw [abs_div, abs_of_pos hd0]; norm_num
  rw [hz0, ← he] at hee
  obtain ⟨w, hw, hw0, hw1, hwa⟩ := hm.exp_acc e (by linarith)
  -- error of the exponential
  have hE1 : |Real.exp e - Real.exp (-2 / d)| ≤ 1 / 2 ^ 51 := by
    set z := 2 / d with hz
    have hz' : -2 / d = -z := by rw [hz]; ring
    rw [hz'] at hee ⊢
    have hze : |e - -z| ≤ z / 2 ^ 52 := by
      rw [abs_le]; norm_num at hee hz1 ⊢; constructor <;> linarith
    have hz3 : z / 2 ≤ -e := by have := abs_le.1 hze; norm_num at this ⊢; linarith
    have key : ∀ u v : ℝ, u ≤ v → z / 2 ≤ u → v - u ≤ z / 2 ^ 52 → Real.exp (-u) - Real.exp (-v) ≤ 1 / 2 ^ 51 := by
      intro u v huv hu hd
      refine (exp_sub_le huv).trans ?_
      have h3 : Real.exp (-u) ≤ Real.exp (-(z / 2)) := Real.exp_le_exp.2 (by linarith)
      have h4 : z / 2 * Real.exp (-(z / 2)) ≤ 1 := by
        rw [Real.exp_neg, ← div_eq_mul_inv, div_le_one (Real.exp_pos _)]
        linarith [Real.add_one_le_exp (z / 2)]
      calc (v - u) * Real.exp (-u) ≤ z / 2 ^ 52 * Real.exp (-(z / 2)) := by
            gcongr
        _ = 1 / 2 ^ 51 * (z / 2 * Real.exp (-(z / 2))) := by norm_num; ring
        _ ≤ 1 / 2 ^ 51 * 1 := by gcongr
        _ = _ := by ring
    rcases le_total z (-e) with hc | hc
    · have := key z (-e) hc (by linarith) (by have := abs_le.1 hze; linarith)
      rw [neg_neg] at this
      rw [abs_sub_comm, abs_of_nonneg]
      · exact this
      · have := Real.exp_le_exp.2 (show e ≤ -z by linarith); linarith
    · have := key (-e) z hc hz3 (by have := abs_le.1 hze; linarith)
      rw [neg_neg] at this
      rw [abs_of_nonneg]
      · exact this
      · have := Real.exp_le_exp.2 (show -z ≤ e by linarith); linarith
  have hE2 : |Real.exp (-2 / d) - phiD (1 - s ^ 2)| ≤ 1 / 2 ^ 49 := by
    have e1 : Real.exp (-2 / d) = phiD d := by unfold phiD; rw [if_neg (not_le.2 hd0)]
    rw [e1]
    refine (phiD_lip hd0.le (by linarith [show (0 : ℝ) < 1 / 2 ^ 50 - 1 / 2 ^ 102 by norm_num])).trans ?_
    norm_num at hdD ⊢; linarith
  have hE0 : |w - Real.exp e| ≤ 1 / 2 ^ 50 + 1 / 2 ^ 110 := by
    refine hwa.trans (add_le_add ?_ tiny_le)
    have : Real.exp e ≤ 1 := Real.exp_le_one_iff.2 (by linarith)
    rw [show (-50 : ℤ) = -((50 : ℕ) : ℤ) by norm_num, zpow_neg, zpow_natCast, ← one_div]
    exact mul_le_of_le_one_right (by positivity) this
  have hE : |w - phiD (1 - s ^ 2)| ≤ 1 / 2 ^ 48 := by
    have a0 := abs_le.1 hE0
    have a1 := abs_le.1 hE1
    have a2 := abs_le.1 hE2
    rw [abs_le]; norm_num at a0 a1 a2 ⊢; constructor <;> linarith
  exact ⟨y, d, e, w, hpow, hof, hd0, hofe, hw, hw0, hw1, hE⟩

/-- the integrand at a double in `(1/3, 1)`, away from 1/3 -/
theorem tiling_three64 {x : ℝ} (hr : Rep x) (h1 : 1 / 3 + 1 / 10000 ≤ x) (h2 : x < 1) :
    ∃ f, tiling_integrand64 m (.fin x) (.fin 3) = .ok (.fin f) ∧ 0 ≤ f ∧ f ≤ 3 ∧ |f - bump3 x| ≤ 1 / 2 ^ 43 := by
  have hb : ∀ y : ℝ, -4 ≤ y → y ≤ 4 → |y| ≤ 4 * 2 ^ 53 := fun y ha hb => by
    rw [abs_le]; constructor <;> norm_num <;> linarith
  obtain ⟨s, hs, hsb, hsa⟩ := sarg_three hr h1 h2
  obtain ⟨y, d, e, w, hpow, hof, hd0, hofe, hw, hw0, hw1, hE⟩ := exp_tail64 hm hsb
  have hs1 : s ^ 2 ≤ 1 := by
    rw [sq_le_one_iff_abs_le_one]; exact hsb.trans (by norm_num)
  have hphi : |phiD (1 - s ^ 2) - phiD (1 - (3 * x - 2) ^ 2)| ≤ 1 / 2 ^ 47 := by
    refine (phiD_lip (by linarith) (sq_bound3 (by linarith) h2.le)).trans ?_
    have e : (1 - s ^ 2) - (1 - (3 * x - 2) ^ 2) = -((s - (3 * x - 2)) * (s + (3 * x - 2))) := by ring
    have hsum : |s + (3 * x - 2)| ≤ 2 := by
      have q1 := abs_le.1 hsb
      rw [abs_le]; norm_num at q1 ⊢; constructor <;> linarith
    rw [e, abs_neg, abs_mul]
    calc 4 * (|s - (3 * x - 2)| * |s + (3 * x - 2)|) ≤ 4 * (1 / 2 ^ 50 * 2) := by gcongr
      _ = 1 / 2 ^ 47 := by norm_num
  have hE' : |w - phiD (1 - (3 * x - 2) ^ 2)| ≤ 1 / 2 ^ 46 := by
    have q1 := abs_le.1 hE
    have q2 := abs_le.1 hphi
    rw [abs_le]; norm_num at q1 q2 ⊢; constructor <;> linarith
  have hx0 : 0 < x := by linarith
  have hwx : w / x ≤ 3 := by rw [div_le_iff₀ hx0]; linarith
  have hwx0 : 0 ≤ w / x := by positivity
  refine ⟨rnd (w / x), ?_, rnd_nonneg hwx0, rnd_le rep_three hwx, ?_⟩
  · unfold tiling_integrand64
    rw [inv_three64, slope_three64]
    simp only [Py.bind_ok]
    rw [hs, hpow]
    simp only [Py.bind_ok]
    rw [F64.sub_fin, hof, F64.pdiv_fin hd0.ne', hofe]
    simp only [Py.bind_ok]
    change Except.ok (F64.div (m.exp e) (.fin x)) = _
    rw [hw, F64.div_fin hx0.ne', F64.of_fin' (hb _ (by linarith) (by linarith))]
  · have a0 := abs_le.1 (rnd_acc' (w / x))
    rw [abs_of_nonneg hwx0] at a0
    have a1 : |w / x - bump3 x| ≤ 1 / 2 ^ 44 := by
      unfold bump3
      rw [← sub_div, abs_div, abs_of_pos hx0, div_le_iff₀ hx0]
      refine hE'.trans ?_
      norm_num at h1 ⊢; linarith
    have a2 := abs_le.1 a1
    rw [abs_le]; norm_num at a0 a2 ⊢; constructor <;> linarith

set_option maxHeartbeats 2000000 in
/-- `part_scaling_fn(a, 1.0, 300, 3.0)` in double precision, for the lower limits occurring up to `L = 794`: nothing overflows, no division
by zero occurs, and the value is that of exact arithmetic up to 2^-37. -/
theorem part_three64 {a0 a : ℝ} (hA : Low3 a0 a) :
    ∃ S, part_scaling_fn64 m (.fin a) (.fin 1) 300 (.fin 3) = .ok (.fin S) ∧ 0 ≤ S ∧ |S - quad 3 300 a0| ≤ 1 / 2 ^ 37 := by
  have hb : ∀ y : ℝ, -4 ≤ y → y ≤ 4 → |y| ≤ 4 * 2 ^ 53 := fun y ha hb => by
    rw [abs_le]; constructor <;> norm_num <;> linarith
  have h1 := hA.ge
  have htop := hA.top
  have h2 : a0 < 1 := by norm_num at htop ⊢; linarith
  have hn := abs_le.1 hA.near
  have ha1 : a < 1 := by norm_num at htop hn ⊢; linarith
  have ha0 : 1 / 4 ≤ a := by norm_num at hn ⊢; linarith
  obtain ⟨-, -, -, -, hh0, hh1, hhH⟩ := hA.acc (i := 0) le_rfl (by norm_num)
  have hd0 : 0 ≤ rnd (1 - a) := rnd_nonneg (by linarith)
  have hd1 : rnd (1 - a) ≤ 1 := rnd_le rep_one (by linarith)
  have hh : F64.pdiv ((F64.fin 1).sub (.fin a)) (.ofInt 300) = .ok (.fin (step3 a)) := by
    rw [F64.sub_fin, F64.of_fin' (hb _ (by linarith) (by linarith)), F64.ofInt_eq (by norm_num),
      F64.pdiv_fin (by norm_num), F64.of_fin' (hb _ ?_ ?_)]
    · unfold step3; push_cast; rfl
    · push_cast; linarith
    · push_cast; linarith
  have hne : ¬ (F64.fin a).eq (.fin 1) := by rw [F64.eq_fin]; exact ha1.ne
  set h := step3 a with hhdef
  have hH0 : 0 ≤ (1 - a0) / (300 : ℤ) := by push_cast; linarith
  have hH1 : (1 - a0) / ((300 : ℤ) : ℝ) ≤ 1 / 450 := by push_cast; linarith
  -- the abscissae
  have hx : ∀ i : ℤ, 0 ≤ i → i ≤ 300 → (F64.fin a).add ((F64.ofInt i).mul (.fin h)) = .fin (node3 a i) := by
    intro i h3 h4
    have hi0 : (0 : ℝ) ≤ i := by exact_mod_cast h3
    have hi1 : (i : ℝ) ≤ 300 := by exact_mod_cast h4
    have hp0 : 0 ≤ i * h := by positivity
    have hp1 : i * h ≤ 1 := by nlinarith
    rw [F64.ofInt_eq (by rw [abs_le]; constructor <;> omega), F64.mul_fin, F64.of_fin' (hb _ (by linarith) (by linarith)),
      F64.add_fin]
    have := rnd_le rep_one hp1
    have := rnd_nonneg hp0
    rw [F64.of_fin' (hb _ (by linarith) (by linarith))]
    rfl
  -- unless skipped, an abscissa is away from 1/3
  have hfar : ∀ i : ℤ, 0 ≤ i → i ≤ 300 → node3 a i ≠ rnd (1 / 3) → 1 / 3 + 1 / 10000 ≤ node3 a i := by
    intro i h3 h4 hne
    obtain ⟨-, x1, -, x3, -⟩ := hA.acc h3 h4
    rcases hA.edge with ⟨e1, e2⟩ | e
    · have hi : i ≠ 0 := by
        rintro rfl
        apply hne
        unfold node3
        rw [Int.cast_zero, zero_mul, rnd_zero, add_zero, rnd_id hA.rep, e2]
      have hi' : (1 : ℝ) ≤ i := by exact_mod_cast (by omega : 1 ≤ i)
      rw [e1] at x3
      have q := abs_le.1 x3
      push_cast at q
      norm_num at q ⊢
      linarith
    · norm_num at hn ⊢
      linarith
  -- one step of the loop
  have hstep : ∀ (i : ℤ) (S : ℝ), 0 ≤ i → i < 300 → 0 ≤ S → S ≤ 3 → ∃ S',
      (do
        let inv ← F64.pdiv (.fin 1) (.fin 3)
        let x := (F64.fin a).add ((F64.ofInt i).mul (.fin h))
        let y := (F64.fin a).add ((F64.ofInt (i + 1)).mul (.fin h))
        if ¬ (x.eq inv ∨ x.eq (.fin 1)) ∧ ¬ (y.eq inv ∨ y.eq (.fin 1)) then do
          let f1 ← tiling_integrand64 m x (.fin 3)
          let f2 ← tiling_integrand64 m y (.fin 3)
          .ok ((F64.fin S).add (((f1.add f2).mul (.fin h)).div (.fin 2)))
        else .ok (F64.fin S) : Py F64) = .ok (.fin S') ∧ 0 ≤ S' ∧ |S' - (S + panel3 a0 i)| ≤ 1 / 2 ^ 46 := by
    intro i S hi0 hi1 hS0 hS1
    obtain ⟨r1, x1, x2, x3, -⟩ := hA.acc hi0 (by omega)
    obtain ⟨r2, y1, y2, y3, -⟩ := hA.acc (i := i + 1) (by omega) (by omega)
    have hb1 := node_bounds (a := a0) (n := 300) (i := i) h2.le hi0 (by omega) (by omega)
    have hb2 := node_bounds (a := a0) (n := 300) (i := i + 1) h2.le (by omega) (by omega) (by omega)
    have hpan := abs_le.1 (panel3_near h1 h2 hi0 hi1)
    have fX := hfar i hi0 (by omega)
    have fY := hfar (i + 1) (by omega) (by omega)
    rw [inv_three64]
    simp only [Py.bind_ok]
    rw [hx i hi0 (by omega), hx (i + 1) (by omega) (by omega)]
    simp only [F64.eq_fin]
    set H := (1 - a0) / ((300 : ℤ) : ℝ) with hHdef
    push_cast at hb2 y3
    have e : a0 + (i + 1) * H = a0 + i * H + H := by ring
    set t1 := a0 + i * H with ht1
    set t2 := a0 + (i + 1) * H with ht2
    set X := node3 a i with hX
    set Y := node3 a (i + 1) with hY
    have G1 := bump3_bounds (h1.trans hb1.1) hb1.2
    have G2 := bump3_bounds (h1.trans hb2.1) hb2.2
    split_ifs with hskip
    · push Not at hskip
      have fX := fX hskip.1.1
      have fY := fY hskip.2.1
      obtain ⟨f1, hf1, f10, f11, f1a⟩ := tiling_three64 hm r1 fX (lt_of_le_of_ne x2 hskip.1.2)
      obtain ⟨f2, hf2, f20, f21, f2a⟩ := tiling_three64 hm r2 fY (lt_of_le_of_ne y2 hskip.2.2)
      rw [hf1, hf2]
      simp only [Py.bind_ok]
      have L1 := bump3_lip (h1.trans hb1.1) hb1.2 (by linarith : 1 / 3 ≤ X) x2
      have L2 := bump3_lip (h1.trans hb2.1) hb2.2 (by linarith : 1 / 3 ≤ Y) y2
      have F1 : |f1 - bump3 t1| ≤ 1 / 2 ^ 42 := by
        have q1 := abs_le.1 (L1.trans (mul_le_mul_of_nonneg_left x3 (by norm_num)))
        have q2 := abs_le.1 f1a
        rw [abs_le]; norm_num at q1 q2 ⊢; constructor <;> linarith
      have F2 : |f2 - bump3 t2| ≤ 1 / 2 ^ 42 := by
        have q1 := abs_le.1 (L2.trans (mul_le_mul_of_nonneg_left y3 (by norm_num)))
        have q2 := abs_le.1 f2a
        rw [abs_le]; norm_num at q1 q2 ⊢; constructor <;> linarith
      -- f1 + f2
      have A1 := abs_le.1 (rnd_acc' (f1 + f2))
      rw [abs_of_nonneg (by linarith : 0 ≤ f1 + f2)] at A1
      have A2 := rnd_le (z := 6) (by have := rep_int (n := 6) (by norm_num); push_cast at this; exact this) (show f1 + f2 ≤ 6 by linarith)
      have A0 := rnd_nonneg (show 0 ≤ f1 + f2 by linarith)
      set v1 := rnd (f1 + f2) with hv1
      -- times h
      have M0 : 0 ≤ v1 * h := by positivity
      have M1 : v1 * h ≤ 1 := by nlinarith
      have B1 := abs_le.1 (rnd_acc' (v1 * h))
      rw [abs_of_nonneg M0] at B1
      have B0 := rnd_nonneg M0
      have B2 := rnd_le rep_one M1
      set v2 := rnd (v1 * h) with hv2
      have C1 := abs_le.1 (rnd_acc' (v2 / 2))
      rw [abs_of_nonneg (by linarith : 0 ≤ v2 / 2)] at C1
      have C0 := rnd_nonneg (show 0 ≤ v2 / 2 by linarith)
      have C2 := rnd_le rep_one (show v2 / 2 ≤ 1 by linarith)
      set v3 := rnd (v2 / 2) with hv3
      have D1 := abs_le.1 (rnd_acc' (S + v3))
      rw [abs_of_nonneg (by linarith : 0 ≤ S + v3)] at D1
      refine ⟨rnd (S + v3), ?_, rnd_nonneg (by linarith), ?_⟩
      · have h8 : ∀ y : ℝ, -8 ≤ y → y ≤ 8 → |y| ≤ 4 * 2 ^ 53 := fun y ha hb => by
          rw [abs_le]; constructor <;> norm_num <;> linarith
        rw [F64.add_fin, F64.of_fin' (h8 _ (by linarith) (by linarith)), F64.mul_fin,
          F64.of_fin' (hb _ (by linarith) (by linarith)), F64.div_fin (by norm_num),
          F64.of_fin' (hb _ (by linarith) (by linarith)), F64.add_fin, F64.of_fin' (hb _ (by linarith) (by linarith))]
      · -- collect the errors
        have q1 := abs_le.1 F1
        have q2 := abs_le.1 F2
        have q3 : |v1 - (bump3 t1 + bump3 t2)| ≤ 1 / 2 ^ 40 := by
          rw [abs_le]; norm_num at q1 q2 A1 ⊢; constructor <;> linarith
        have q4 : |v1 * h - (bump3 t1 + bump3 t2) * H| ≤ 1 / 2 ^ 40 / 400 + 6 / 2 ^ 60 := by
          have : v1 * h - (bump3 t1 + bump3 t2) * H =
              (v1 - (bump3 t1 + bump3 t2)) * h + (bump3 t1 + bump3 t2) * (h - H) := by ring
          rw [this]
          refine (abs_add_le _ _).trans ?_
          rw [abs_mul, abs_mul, abs_of_nonneg hh0, abs_of_nonneg (by linarith [G1.1, G2.1] : 0 ≤ bump3 t1 + bump3 t2)]
          have w1 : |v1 - (bump3 t1 + bump3 t2)| * h ≤ 1 / 2 ^ 40 * (1 / 400) := by gcongr
          have w2 : (bump3 t1 + bump3 t2) * |h - H| ≤ 6 * (1 / 2 ^ 60) := by gcongr; linarith [G1.2, G2.2]
          norm_num at w1 w2 ⊢
          linarith
        have q5 := abs_le.1 q4
        rw [abs_le]
        norm_num at q5 B1 C1 D1 hpan ⊢
        constructor <;> linarith
    · -- a skipped panel: all abscissae of it are close to an end point
      refine ⟨S, rfl, hS0, ?_⟩
      have q1 := abs_le.1 x3
      have q2 := abs_le.1 y3
      have hHle : H ≤ 1 / 450 := hH1
      have hedge : (t1 - 1 / 3 ≤ 1 / 400 ∨ 1 - t1 ≤ 1 / 400) ∧ (t2 - 1 / 3 ≤ 1 / 400 ∨ 1 - t2 ≤ 1 / 400) := by
        rw [e] at q2 ⊢
        rw [three_inv] at hskip
        norm_num at q1 q2
        have : X = 6004799503160661 / 18014398509481984 ∨ X = 1 ∨ Y = 6004799503160661 / 18014398509481984 ∨ Y = 1 := by tauto
        rcases this with h' | h' | h' | h'
        · exact ⟨.inl (by linarith), .inl (by linarith)⟩
        · exact ⟨.inr (by linarith), .inr (by linarith)⟩
        · exact ⟨.inl (by linarith), .inl (by linarith)⟩
        · exact ⟨.inr (by linarith), .inr (by linarith)⟩
      have g1 := bump3_edge (h1.trans hb1.1) hb1.2 hedge.1
      have g2 := bump3_edge (h1.trans hb2.1) hb2.2 hedge.2
      have g5 : (bump3 t1 + bump3 t2) * H ≤ (1 / 2 ^ 100 + 1 / 2 ^ 100) * 1 := by
        gcongr; linarith
      have g6 := (panel3_bounds h1 h2 hi0 hi1).1
      rw [abs_le]
      norm_num at hpan g5 ⊢
      constructor <;> linarith
  obtain ⟨s, hs, S, hS, hS0, hSa⟩ := range_loop' (a := 0) (b := 300) (s := F64.fin 0)
    (body := fun (sum : F64) (i : ℤ) => do
      let inv ← F64.pdiv (.fin 1) (.fin 3)
      let x := (F64.fin a).add ((F64.ofInt i).mul (.fin h))
      let y := (F64.fin a).add ((F64.ofInt (i + 1)).mul (.fin h))
      if ¬ (x.eq inv ∨ x.eq (.fin 1)) ∧ ¬ (y.eq inv ∨ y.eq (.fin 1)) then do
        let f1 ← tiling_integrand64 m x (.fin 3)
        let f2 ← tiling_integrand64 m y (.fin 3)
        .ok (sum.add (((f1.add f2).mul (.fin h)).div (.fin 2)))
      else .ok sum)
    (fun i s => ∃ S, s = F64.fin S ∧ 0 ≤ S ∧ (i ≤ 300 → |S - ∑ k ∈ Finset.Ico 0 i, panel3 a0 k| ≤ i / 2 ^ 46))
    ⟨0, rfl, le_rfl, by simp⟩
    (fun i s hi0 hi1 hP => by
      obtain ⟨S, rfl, hS0, hSa⟩ := hP
      have hSa := hSa (by omega)
      have hT := panels3_bounds h1 h2 hi0 hi1.le
      have hi300 : (i : ℝ) ≤ 300 := by exact_mod_cast hi1.le
      have hS2 : S ≤ 3 := by
        have := abs_le.1 hSa
        have : (i : ℝ) / 2 ^ 46 ≤ 300 / 2 ^ 46 := by gcongr
        norm_num at this
        linarith
      obtain ⟨S', hS', hS0', hSa'⟩ := hstep i S hi0 hi1 hS0 hS2
      refine ⟨_, hS', S', rfl, hS0', fun _ => ?_⟩
      have : Finset.Ico 0 (i + 1) = insert i (Finset.Ico 0 i) := by
        ext x; simp only [Finset.mem_Ico, Finset.mem_insert]; omega
      rw [this, Finset.sum_insert (by simp)]
      push_cast
      calc |S' - (panel3 a0 i + ∑ k ∈ Finset.Ico 0 i, panel3 a0 k)|
          = |(S' - (S + panel3 a0 i)) + (S - ∑ k ∈ Finset.Ico 0 i, panel3 a0 k)| := by congr 1; ring
        _ ≤ _ := abs_add_le _ _
        _ ≤ 1 / 2 ^ 46 + i / 2 ^ 46 := add_le_add hSa' hSa
        _ = _ := by ring)
  refine ⟨S, ?_, hS0, ?_⟩
  · unfold part_scaling_fn64
    rw [hh]
    simp only [Py.bind_ok]
    rw [if_neg hne]
    rw [← hS]
    exact hs
  · have := hSa (by norm_num)
    rw [show max (0 : ℤ) 300 = 300 by norm_num] at this
    rw [quad_eq_panels3]
    refine this.trans ?_
    norm_num

end S2wav
