import Verif.Lemmas.QuadThree2

/-! # The trapezium rule in double precision for `lam = 4`

All lower limits `l / 4^j` and `1 - l / 4^j` are doubles, so that, unlike with `lam = 3`, no abscissa exceeds 1. -/

namespace S2wav
open Classical

/-- the integrand for `lam = 4`, continued by zero to the end points -/
noncomputable def bump4 (t : ℝ) : ℝ := phiD (1 - ((8 * t - 5) / 3) ^ 2) / t

theorem sArg_four (t : ℝ) : sArg 4 t = (8 * t - 5) / 3 := by unfold sArg; norm_num; ring

theorem gInt_four {t : ℝ} (h1 : 1 / 4 < t) (h2 : t < 1) : gInt 4 t = bump4 t := by
  unfold gInt bump4 phiD
  rw [sArg_four, if_neg]
  push Not
  nlinarith

section
variable {t : ℝ} (h1 : 1 / 4 ≤ t) (h2 : t ≤ 1)
include h1 h2

theorem sq_bound4 : 0 ≤ 1 - ((8 * t - 5) / 3) ^ 2 := by nlinarith

theorem bump4_bounds : 0 ≤ bump4 t ∧ bump4 t ≤ 4 := by
  have ht : 0 < t := by linarith
  have := phiD_nonneg (1 - ((8 * t - 5) / 3) ^ 2)
  have := phiD_le_one (1 - ((8 * t - 5) / 3) ^ 2)
  unfold bump4
  refine ⟨by positivity, ?_⟩
  rw [div_le_iff₀ ht]; linarith

theorem bump4_edge (h3 : t - 1 / 4 ≤ 1 / 390 ∨ 1 - t ≤ 1 / 390) : bump4 t ≤ 1 / 2 ^ 100 := by
  have ht : 0 < t := by linarith
  have hD : 1 - ((8 * t - 5) / 3) ^ 2 ≤ 2 / 125 := by rcases h3 with h | h <;> nlinarith
  have hphi : phiD (1 - ((8 * t - 5) / 3) ^ 2) ≤ 1 / 2 ^ 102 := by
    unfold phiD
    split_ifs with h
    · positivity
    · have hD0 := not_le.1 h
      have h5 : -2 / (1 - ((8 * t - 5) / 3) ^ 2) ≤ -125 := by
        rw [div_le_iff₀ hD0]; linarith
      refine (Real.exp_le_exp.2 h5).trans ?_
      rw [show (-125 : ℝ) = -((125 : ℕ) * 1) by norm_num, Real.exp_neg, Real.exp_nat_mul]
      have h6 : (2 : ℝ) ≤ Real.exp 1 := by have := Real.add_one_le_exp (1 : ℝ); linarith
      have h7 : (2 : ℝ) ^ 125 ≤ Real.exp 1 ^ 125 := by gcongr
      calc (Real.exp 1 ^ 125)⁻¹ ≤ (2 ^ 125)⁻¹ := inv_anti₀ (by positivity) h7
        _ ≤ 1 / 2 ^ 102 := by norm_num
  unfold bump4
  rw [div_le_iff₀ ht]
  calc _ ≤ 1 / 2 ^ 102 := hphi
    _ ≤ 1 / 2 ^ 100 * (1 / 4) := by norm_num
    _ ≤ _ := by gcongr

theorem bump4_lip {x : ℝ} (h3 : 1 / 4 ≤ x) (h4 : x ≤ 1) : |bump4 x - bump4 t| ≤ 102 * |x - t| := by
  have ht : 0 < t := by linarith
  have hx : 0 < x := by linarith
  have hl := phiD_lip (sq_bound4 h3 h4) (sq_bound4 h1 h2)
  have hD : |(1 - ((8 * x - 5) / 3) ^ 2) - (1 - ((8 * t - 5) / 3) ^ 2)| ≤ 16 / 3 * |x - t| := by
    rw [show (1 - ((8 * x - 5) / 3) ^ 2) - (1 - ((8 * t - 5) / 3) ^ 2) = ((10 - 8 * x - 8 * t) / 3 * (8 / 3)) * (x - t) by ring, abs_mul]
    gcongr
    rw [abs_le]; constructor <;> linarith
  have e : bump4 x - bump4 t = (phiD (1 - ((8 * x - 5) / 3) ^ 2) - phiD (1 - ((8 * t - 5) / 3) ^ 2)) / x
      - phiD (1 - ((8 * t - 5) / 3) ^ 2) * (x - t) / (x * t) := by
    unfold bump4; field_simp; ring
  rw [e]
  have hp0 := phiD_nonneg (1 - ((8 * t - 5) / 3) ^ 2)
  have hp1 := phiD_le_one (1 - ((8 * t - 5) / 3) ^ 2)
  have q1 : |(phiD (1 - ((8 * x - 5) / 3) ^ 2) - phiD (1 - ((8 * t - 5) / 3) ^ 2)) / x| ≤ 86 * |x - t| := by
    rw [abs_div, abs_of_pos hx, div_le_iff₀ hx]
    nlinarith [abs_nonneg (x - t)]
  have q2 : |phiD (1 - ((8 * t - 5) / 3) ^ 2) * (x - t) / (x * t)| ≤ 16 * |x - t| := by
    rw [abs_div, abs_mul, abs_of_nonneg hp0, abs_of_pos (by positivity : 0 < x * t), div_le_iff₀ (by positivity)]
    have : 1 / 16 ≤ x * t := by nlinarith
    nlinarith [abs_nonneg (x - t)]
  calc _ ≤ _ := abs_sub _ _
    _ ≤ 102 * |x - t| := by linarith

end

/-- one panel of the exact rule -/
noncomputable def panel4 (a : ℝ) (i : ℤ) : ℝ :=
  if touches 4 300 a i then 0 else
    (gInt 4 (a + i * ((1 - a) / (300 : ℤ))) + gInt 4 (a + (i + 1) * ((1 - a) / (300 : ℤ)))) * ((1 - a) / (300 : ℤ)) / 2

theorem quad_eq_panels4 (a : ℝ) : quad 4 300 a = ∑ i ∈ Finset.Ico 0 300, panel4 a i := rfl

section
variable {a : ℝ} (h1 : 1 / 4 ≤ a) (h2 : a < 1) {i : ℤ} (hi0 : 0 ≤ i) (hi1 : i < 300)
include h1 h2 hi0 hi1

/-- the panel with the integrand continued by zero, instead of the skipping of panels -/
theorem panel4_near :
    |panel4 a i - (bump4 (a + i * ((1 - a) / (300 : ℤ))) + bump4 (a + (i + 1) * ((1 - a) / (300 : ℤ)))) *
      ((1 - a) / (300 : ℤ)) / 2| ≤ 1 / 2 ^ 100 := by
  have hb1 := node_bounds (a := a) (n := 300) (i := i) h2.le hi0 (by omega) (by omega)
  have hb2 := node_bounds (a := a) (n := 300) (i := i + 1) h2.le (by omega) (by omega) (by omega)
  push_cast at hb1 hb2
  unfold panel4
  push_cast
  set H := (1 - a) / 300 with hH
  have hH0 : 0 ≤ H := by rw [hH]; apply div_nonneg <;> linarith
  have hH1 : H ≤ 1 / 400 := by rw [hH]; linarith
  split_ifs with ht
  · have hedge : (a + i * H - 1 / 4 ≤ 1 / 390 ∨ 1 - (a + i * H) ≤ 1 / 390) ∧
        (a + (i + 1) * H - 1 / 4 ≤ 1 / 390 ∨ 1 - (a + (i + 1) * H) ≤ 1 / 390) := by
      unfold touches at ht
      push_cast at ht
      rw [← hH] at ht
      have e : a + (i + 1) * H = a + i * H + H := by ring
      rw [e] at ht ⊢
      rcases ht with (h | h) | (h | h)
      · exact ⟨.inl (by linarith), .inl (by linarith)⟩
      · exact ⟨.inr (by linarith), .inr (by linarith)⟩
      · exact ⟨.inl (by linarith), .inl (by linarith)⟩
      · exact ⟨.inr (by linarith), .inr (by linarith)⟩
    have g1 := bump4_edge (h1.trans hb1.1) hb1.2 hedge.1
    have g2 := bump4_edge (h1.trans hb2.1) hb2.2 hedge.2
    have g3 := (bump4_bounds (h1.trans hb1.1) hb1.2).1
    have g4 := (bump4_bounds (h1.trans hb2.1) hb2.2).1
    have g5 : (bump4 (a + i * H) + bump4 (a + (i + 1) * H)) * H ≤ (1 / 2 ^ 100 + 1 / 2 ^ 100) * 1 := by
      gcongr; linarith
    rw [zero_sub, abs_neg, abs_of_nonneg (by positivity)]
    linarith
  · unfold touches at ht
    push Not at ht
    push_cast at ht
    rw [← hH] at ht
    rw [gInt_four (lt_of_le_of_ne (h1.trans hb1.1) (Ne.symm ht.1.1)) (lt_of_le_of_ne hb1.2 ht.1.2),
      gInt_four (lt_of_le_of_ne (h1.trans hb2.1) (Ne.symm ht.2.1)) (lt_of_le_of_ne hb2.2 ht.2.2), sub_self, abs_zero]
    positivity

theorem panel4_bounds : 0 ≤ panel4 a i ∧ panel4 a i ≤ 1 / 100 := by
  have hb1 := node_bounds (a := a) (n := 300) (i := i) h2.le hi0 (by omega) (by omega)
  have hb2 := node_bounds (a := a) (n := 300) (i := i + 1) h2.le (by omega) (by omega) (by omega)
  push_cast at hb1 hb2
  unfold panel4
  push_cast
  set H := (1 - a) / 300 with hH
  have hH0 : 0 ≤ H := by rw [hH]; apply div_nonneg <;> linarith
  have hH1 : H ≤ 1 / 400 := by rw [hH]; linarith
  split_ifs with ht
  · constructor <;> norm_num
  · unfold touches at ht
    push Not at ht
    push_cast at ht
    rw [← hH] at ht
    rw [gInt_four (lt_of_le_of_ne (h1.trans hb1.1) (Ne.symm ht.1.1)) (lt_of_le_of_ne hb1.2 ht.1.2),
      gInt_four (lt_of_le_of_ne (h1.trans hb2.1) (Ne.symm ht.2.1)) (lt_of_le_of_ne hb2.2 ht.2.2)]
    have g3 := bump4_bounds (h1.trans hb1.1) hb1.2
    have g4 := bump4_bounds (h1.trans hb2.1) hb2.2
    constructor
    · have := g3.1; have := g4.1; positivity
    · have : (bump4 (a + i * H) + bump4 (a + (i + 1) * H)) * H ≤ (4 + 4) * (1 / 400) := by
        have := g3.1; have := g4.1
        gcongr; exact g3.2; exact g4.2
      linarith

end

theorem panels4_bounds {a : ℝ} (h1 : 1 / 4 ≤ a) (h2 : a < 1) {i : ℤ} (hi0 : 0 ≤ i) (hi1 : i ≤ 300) :
    0 ≤ ∑ k ∈ Finset.Ico 0 i, panel4 a k ∧ ∑ k ∈ Finset.Ico 0 i, panel4 a k ≤ 3 := by
  have hk : ∀ k ∈ Finset.Ico 0 i, 0 ≤ panel4 a k ∧ panel4 a k ≤ 1 / 100 := fun k hk => by
    rw [Finset.mem_Ico] at hk
    exact panel4_bounds h1 h2 hk.1 (by omega)
  refine ⟨Finset.sum_nonneg fun k h => (hk k h).1, ?_⟩
  refine (Finset.sum_le_card_nsmul _ _ (1 / 100) fun k h => (hk k h).2).trans ?_
  rw [Int.card_Ico, nsmul_eq_mul]
  have : (((i - 0).toNat : ℕ) : ℝ) ≤ 300 := by exact_mod_cast (by omega : (i - 0).toNat ≤ 300)
  linarith

/-- a lower limit of the form `l / 4^j` -/
structure Low4 (a : ℝ) : Prop where
  rep : Rep a
  edge : a = 1 / 4 ∨ 1 / 4 + 1 / 2 ^ 48 ≤ a
  lt : a < 1
  rep1 : Rep (1 - a)
  rep2 : Rep (1 - a + 1 / 2 ^ 53)

theorem low4 {l j : ℕ} (hl : l < 2 ^ 48) (h1 : 4 ^ j ≤ 4 * l) (h2 : l < 4 ^ j) : Low4 ((l : ℝ) / 4 ^ j) := by
  have hj : j ≤ 24 := by
    by_contra h
    have : 4 ^ 25 ≤ 4 ^ j := Nat.pow_le_pow_right (by norm_num) (by omega)
    omega
  have hj0 : j ≠ 0 := by rintro rfl; simp at h1 h2; omega
  obtain ⟨i, rfl⟩ : ∃ i, j = i + 1 := ⟨j - 1, by omega⟩
  obtain ⟨n, hn⟩ : ∃ n, n = 48 - 2 * (i + 1) := ⟨_, rfl⟩
  have e48 : (4 : ℝ) ^ (i + 1) * 2 ^ n = 2 ^ 48 := by
    rw [show (4 : ℝ) = 2 ^ 2 by norm_num, ← pow_mul, ← pow_add]; congr 1; omega
  have hq : (0 : ℝ) < 4 ^ (i + 1) := by positivity
  have ea : (l : ℝ) / 4 ^ (i + 1) = ((l * 2 ^ n : ℕ) : ℝ) / 2 ^ 48 := by
    rw [← e48]; push_cast; field_simp
  have hk : l * 2 ^ n < 2 ^ 48 := by
    have : 4 ^ (i + 1) * 2 ^ n = 2 ^ 48 := by exact_mod_cast e48
    calc l * 2 ^ n < 4 ^ (i + 1) * 2 ^ n := by gcongr
      _ = 2 ^ 48 := this
  have hk' : l = 4 ^ i ∨ 2 ^ 46 + 1 ≤ l * 2 ^ n := by
    rw [pow_succ] at h1
    rcases Nat.eq_or_lt_of_le (show 4 ^ i ≤ l by omega) with h | h
    · exact .inl h.symm
    · right
      have : 4 ^ (i + 1) * 2 ^ n = 2 ^ 48 := by exact_mod_cast e48
      have h3 : (4 ^ i + 1) * 2 ^ n ≤ l * 2 ^ n := by gcongr; omega
      have h4 : 0 < 2 ^ n := by positivity
      rw [pow_succ] at this
      nlinarith
  have ea' := ea
  rw [ea]
  set k := l * 2 ^ n with hkd
  have hkR : (k : ℝ) < 2 ^ 48 := by exact_mod_cast hk
  refine ⟨?_, ?_, ?_, ?_, ?_⟩
  · have := rep_div (k := k) 48 (by norm_num) (by rw [abs_le]; constructor <;> omega)
    rw [Int.cast_natCast] at this; exact this
  · rcases hk' with h | h
    · left
      rw [hkd, ← ea', h, pow_succ]; push_cast; field_simp
    · right
      have : (2 ^ 46 + 1 : ℝ) ≤ k := by exact_mod_cast h
      rw [le_div_iff₀ (by positivity)]
      norm_num at this ⊢; linarith
  · rw [div_lt_one (by positivity)]; exact hkR
  · have := rep_div (k := 2 ^ 48 - k) 48 (by norm_num) (by rw [abs_le]; constructor <;> omega)
    convert this using 1
    push_cast; field_simp; norm_num
  · have := rep_div (k := 2 ^ 53 - 32 * k + 1) 53 (by norm_num) (by
      have : 1 ≤ k := by
        rcases Nat.eq_zero_or_pos k with h | h
        · exfalso
          have : 0 < l := by have : 0 < 4 ^ (i + 1) := by positivity
                             omega
          have : 0 < l * 2 ^ n := by positivity
          omega
        · exact h
      rw [abs_le]; constructor <;> omega)
    convert this using 1
    push_cast; field_simp; ring

theorem low4_quarter : Low4 (1 / 4) := by
  have := low4 (l := 1) (j := 1) (by norm_num) (by norm_num) (by norm_num)
  norm_num at this ⊢
  exact this

section
variable {a : ℝ} (h : Low4 a)
include h

theorem Low4.ge : 1 / 4 ≤ a := by rcases h.edge with h | h <;> norm_num at h ⊢ <;> linarith

theorem Low4.acc {i : ℤ} (hi0 : 0 ≤ i) (hi1 : i ≤ 300) :
    Rep (node3 a i) ∧ a ≤ node3 a i ∧ node3 a i ≤ 1 ∧ |node3 a i - (a + i * ((1 - a) / (300 : ℤ)))| ≤ 1 / 2 ^ 50 ∧
      0 ≤ step3 a ∧ step3 a ≤ 1 / 399 ∧ |step3 a - (1 - a) / (300 : ℤ)| ≤ 1 / 2 ^ 60 := by
  have hge := h.ge
  have hlt := h.lt
  have hrep := h.rep
  have hi0' : (0 : ℝ) ≤ i := by exact_mod_cast hi0
  have hi1' : (i : ℝ) ≤ 300 := by exact_mod_cast hi1
  have hs : step3 a = rnd ((1 - a) / 300) := by unfold step3; rw [rnd_id h.rep1]
  have r2 := h.rep2
  obtain ⟨d, hd⟩ : ∃ d, d = 1 - a := ⟨_, rfl⟩
  rw [← hd] at hs r2 ⊢
  have s1 := abs_le.1 (rnd_acc' (d / 300))
  rw [abs_of_nonneg (by linarith : 0 ≤ d / 300), ← hs] at s1
  have hs0 : 0 ≤ step3 a := by rw [hs]; exact rnd_nonneg (by linarith)
  have hs1 : step3 a ≤ 1 / 399 := by norm_num at s1 ⊢; linarith
  have sH : |step3 a - d / (300 : ℤ)| ≤ 1 / 2 ^ 60 := by
    rw [abs_le]; push_cast; norm_num at s1 ⊢; constructor <;> linarith
  have hp0 : 0 ≤ i * step3 a := by positivity
  have hp1 : i * step3 a ≤ d + 1 / 2 ^ 53 := by
    have : i * step3 a ≤ 300 * step3 a := by gcongr
    norm_num at s1 ⊢; linarith
  have hip : |i * step3 a - i * (d / (300 : ℤ))| ≤ 1 / 2 ^ 53 := by
    rw [← mul_sub, abs_mul, abs_of_nonneg hi0']
    have : |step3 a - d / (300 : ℤ)| ≤ d / 300 / 2 ^ 53 + 1 / 2 ^ 110 := by push_cast; exact abs_le.2 s1
    calc i * |step3 a - d / (300 : ℤ)| ≤ 300 * (d / 300 / 2 ^ 53 + 1 / 2 ^ 110) := by gcongr
      _ ≤ 1 / 2 ^ 53 := by norm_num; linarith
  have hip' := abs_le.1 hip
  have p1 := abs_le.1 (rnd_acc' (i * step3 a))
  rw [abs_of_nonneg hp0] at p1
  have hr0 := rnd_nonneg hp0
  have hr1 := rnd_le r2 hp1
  have hx := abs_le.1 (rnd_acc' (a + rnd (i * step3 a)))
  rw [abs_of_nonneg (by linarith : 0 ≤ a + rnd (i * step3 a))] at hx
  refine ⟨rep_rnd _, le_rnd hrep (by linarith), rnd_le_one (by linarith), ?_, hs0, hs1, sH⟩
  unfold node3
  rw [abs_le]
  norm_num at hx p1 hip' hr1 hp1 ⊢
  constructor <;> linarith

end

theorem rep_quarter : Rep (1 / 4 : ℝ) := by
  have := rep_div (k := 1) 2 (by norm_num) (by norm_num); norm_num at this ⊢; exact this

theorem inv_four64 : F64.pdiv (.fin 1) (.fin 4) = .ok (.fin (1 / 4)) := by
  rw [F64.pdiv_fin (by norm_num), F64.of_rep rep_quarter (by rw [abs_of_pos] <;> norm_num)]

theorem four_c : rnd (8 / 3) = 6004799503160661 / 2251799813685248 := by
  rw [rnd_eval 6004799503160661 (-51) (by norm_num)] <;> norm_num

theorem slope_four64 : F64.pdiv ((F64.fin 2).mul (.fin 4)) ((F64.fin 4).sub (.fin 1)) = .ok (.fin (6004799503160661 / 2251799813685248)) := by
  have r8 : Rep (8 : ℝ) := by have := rep_int (n := 8) (by norm_num); push_cast at this; exact this
  rw [F64.mul_fin, F64.sub_fin, show (2 : ℝ) * 4 = 8 by norm_num, show (4 : ℝ) - 1 = 3 by norm_num,
    F64.of_rep r8 (by rw [abs_of_pos] <;> norm_num), F64.of_rep rep_three (by rw [abs_of_pos] <;> norm_num),
    F64.pdiv_fin (by norm_num), F64.of_fin' (by rw [abs_of_pos] <;> norm_num), four_c]

/-- the argument of the bump at a double in `(1/4, 1)` -/
theorem sarg_four {x : ℝ} (hr : Rep x) (h1 : 1 / 4 + 1 / 2 ^ 49 ≤ x) (h2 : x < 1) :
    ∃ s, (((F64.fin x).sub (.fin (1 / 4))).mul (.fin (6004799503160661 / 2251799813685248))).sub (.fin 1) = .fin s ∧ |s| ≤ 1 - 1 / 2 ^ 51 ∧
      |s - (8 * x - 5) / 3| ≤ 1 / 2 ^ 50 := by
  have hb : ∀ y : ℝ, -4 ≤ y → y ≤ 4 → |y| ≤ 4 * 2 ^ 53 := fun y ha hb => by
    rw [abs_le]; constructor <;> norm_num <;> linarith
  obtain ⟨c, hc⟩ : ∃ c : ℝ, c = 6004799503160661 / 2251799813685248 := ⟨_, rfl⟩
  rw [← hc]
  have hx1 : x ≤ 1 - 1 / 2 ^ 53 := by
    rcases le_or_gt (1 / 2) x with hx | hx
    · obtain ⟨k, hk, -⟩ := half_rep hr hx
      have : k < 2 ^ 53 := by
        have : (k : ℝ) < 2 ^ 53 := by rw [hk, div_lt_one (by positivity)] at h2; exact h2
        exact_mod_cast this
      have : (k : ℝ) ≤ 2 ^ 53 - 1 := by exact_mod_cast (by omega : k ≤ 2 ^ 53 - 1)
      rw [hk, div_le_iff₀ (by positivity)]
      norm_num at this ⊢
      linarith
    · norm_num; linarith
  have hxv0 : 0 ≤ x - 1 / 4 := by norm_num at h1 ⊢; linarith
  have a1 := abs_le.1 (rnd_acc' (x - 1 / 4))
  rw [abs_of_nonneg hxv0] at a1
  have hu0 := rnd_nonneg hxv0
  have hu1 : rnd (x - 1 / 4) ≤ 3 / 4 - 1 / 2 ^ 53 := by
    have hz : Rep (3 / 4 - 1 / 2 ^ 53 : ℝ) := by
      have := rep_div (k := 3 * 2 ^ 51 - 1) 53 (by norm_num) (by norm_num); push_cast at this
      convert this using 1; norm_num
    exact rnd_le hz (by norm_num at hx1 ⊢; linarith)
  set u := rnd (x - 1 / 4) with hu
  have huc : u * c ≤ 2 - 7 / 2 ^ 54 := by
    have : u * c ≤ (3 / 4 - 1 / 2 ^ 53) * c := by
      have hc0 : 0 ≤ c := by rw [hc]; norm_num
      exact mul_le_mul_of_nonneg_right hu1 hc0
    refine this.trans ?_
    rw [hc]; norm_num
  have huc0 : 0 ≤ u * c := mul_nonneg hu0 (by rw [hc]; norm_num)
  have hcu : |u * c - u * (8 / 3)| ≤ 1 / 2 ^ 53 := by
    rw [← mul_sub, abs_mul, abs_of_nonneg hu0]
    have : |c - 8 / 3| ≤ 4 / 3 / 2 ^ 53 := by rw [hc, abs_le]; constructor <;> norm_num
    calc u * |c - 8 / 3| ≤ 3 / 4 * (4 / 3 / 2 ^ 53) := mul_le_mul (by norm_num at hu1 ⊢; linarith) this (abs_nonneg _) (by norm_num)
      _ = _ := by norm_num
  have hcu := abs_le.1 hcu
  have a2 := abs_le.1 (rnd_acc' (u * c))
  rw [abs_of_nonneg huc0] at a2
  have hw0 := rnd_nonneg huc0
  have hw1 : rnd (u * c) ≤ 2 - 1 / 2 ^ 51 := by
    have hz : Rep (2 - 1 / 2 ^ 51 : ℝ) := by
      have := rep_div (k := 2 ^ 52 - 1) 51 (by norm_num) (by norm_num); push_cast at this
      convert this using 1; norm_num
    rcases le_or_gt (u * c) (2 - 1 / 2 ^ 51) with h | h
    · exact rnd_le hz h
    · refine le_of_eq ?_
      clear * - h huc
      generalize u * c = z at *
      rw [rnd_eval (2 ^ 53 - 2) (-52) (by norm_num)] <;> push_cast <;> norm_num at h huc ⊢ <;> linarith
  set w := rnd (u * c) with hw
  have a3 := abs_le.1 (rnd_acc' (w - 1))
  have hwa : |w - 1| ≤ 1 := by rw [abs_le]; norm_num at hw1 ⊢; constructor <;> linarith
  have hs1 : rnd (w - 1) ≤ 1 - 1 / 2 ^ 51 := by
    have hz : Rep (1 - 1 / 2 ^ 51 : ℝ) := by
      have := rep_div (k := 2 ^ 51 - 1) 51 (by norm_num) (by norm_num); push_cast at this
      convert this using 1; norm_num
    refine rnd_le hz ?_
    norm_num at hw1 ⊢; linarith
  have hsacc : |rnd (w - 1) - (8 * x - 5) / 3| ≤ 1 / 2 ^ 50 := by
    rw [abs_le]
    norm_num at a1 a2 a3 hwa hu1 hw1 hcu huc hx1 ⊢
    constructor <;> linarith
  refine ⟨rnd (w - 1), ?_, ?_, hsacc⟩
  · rw [F64.sub_fin, F64.of_fin' (hb _ (by linarith) (by linarith)), F64.mul_fin,
      F64.of_fin' (hb _ (by linarith) (by norm_num at huc; linarith)), F64.sub_fin, F64.of_fin' (hb _ (by linarith) (by norm_num at hw1; linarith))]
  · have := abs_le.1 hsacc
    rw [abs_le]
    norm_num at this hs1 h1 ⊢
    constructor <;> linarith

variable {m : Libm} (hm : m.Ok)
include hm

/-- the integrand at a double in `(1/4, 1)` -/
theorem tiling_four64 {x : ℝ} (hr : Rep x) (h1 : 1 / 4 + 1 / 2 ^ 49 ≤ x) (h2 : x < 1) :
    ∃ f, tiling_integrand64 m (.fin x) (.fin 4) = .ok (.fin f) ∧ 0 ≤ f ∧ f ≤ 4 ∧ |f - bump4 x| ≤ 1 / 2 ^ 43 := by
  have hb : ∀ y : ℝ, -16 ≤ y → y ≤ 16 → |y| ≤ 4 * 2 ^ 53 := fun y ha hb => by
    rw [abs_le]; constructor <;> norm_num <;> linarith
  obtain ⟨s, hs, hsb, hsa⟩ := sarg_four hr h1 h2
  obtain ⟨y, d, e, w, hpow, hof, hd0, hofe, hw, hw0, hw1, hE⟩ := exp_tail64 hm hsb
  have hs1 : s ^ 2 ≤ 1 := by
    rw [sq_le_one_iff_abs_le_one]; exact hsb.trans (by norm_num)
  have hphi : |phiD (1 - s ^ 2) - phiD (1 - ((8 * x - 5) / 3) ^ 2)| ≤ 1 / 2 ^ 47 := by
    refine (phiD_lip (by linarith) (sq_bound4 (by linarith) h2.le)).trans ?_
    have e : (1 - s ^ 2) - (1 - ((8 * x - 5) / 3) ^ 2) = -((s - ((8 * x - 5) / 3)) * (s + ((8 * x - 5) / 3))) := by ring
    have hsum : |s + ((8 * x - 5) / 3)| ≤ 2 := by
      have q1 := abs_le.1 hsb
      rw [abs_le]; norm_num at q1 ⊢; constructor <;> linarith
    rw [e, abs_neg, abs_mul]
    calc 4 * (|s - ((8 * x - 5) / 3)| * |s + ((8 * x - 5) / 3)|) ≤ 4 * (1 / 2 ^ 50 * 2) := by gcongr
      _ = 1 / 2 ^ 47 := by norm_num
  have hE' : |w - phiD (1 - ((8 * x - 5) / 3) ^ 2)| ≤ 1 / 2 ^ 46 := by
    have q1 := abs_le.1 hE
    have q2 := abs_le.1 hphi
    rw [abs_le]; norm_num at q1 q2 ⊢; constructor <;> linarith
  have hx0 : 0 < x := by linarith
  have hwx : w / x ≤ 4 := by rw [div_le_iff₀ hx0]; linarith
  have hwx0 : 0 ≤ w / x := by positivity
  refine ⟨rnd (w / x), ?_, rnd_nonneg hwx0, rnd_le rep_four hwx, ?_⟩
  · unfold tiling_integrand64
    rw [inv_four64, slope_four64]
    simp only [Py.bind_ok]
    rw [hs, hpow]
    simp only [Py.bind_ok]
    rw [F64.sub_fin, hof, F64.pdiv_fin hd0.ne', hofe]
    simp only [Py.bind_ok]
    change Except.ok (F64.div (m.exp e) (.fin x)) = _
    rw [hw, F64.div_fin hx0.ne', F64.of_fin' (hb _ (by linarith) (by linarith))]
  · have a := abs_le.1 (rnd_acc' (w / x))
    rw [abs_of_nonneg hwx0] at a
    have a1 : |w / x - bump4 x| ≤ 1 / 2 ^ 44 := by
      unfold bump4
      rw [← sub_div, abs_div, abs_of_pos hx0, div_le_iff₀ hx0]
      refine hE'.trans ?_
      norm_num at h1 ⊢; linarith
    have a2 := abs_le.1 a1
    rw [abs_le]; norm_num at a a2 ⊢; constructor <;> linarith

set_option maxHeartbeats 2000000 in
/-- `part_scaling_fn(a, 1.0, 300, 4.0)` in double precision, for the lower limits occurring up to `L = 2^48`: nothing overflows, no division
by zero occurs, and the value is that of exact arithmetic up to 2^-37. -/
theorem part_four64 {a : ℝ} (hA : Low4 a) :
    ∃ S, part_scaling_fn64 m (.fin a) (.fin 1) 300 (.fin 4) = .ok (.fin S) ∧ 0 ≤ S ∧ |S - quad 4 300 a| ≤ 1 / 2 ^ 37 := by
  have hb : ∀ y : ℝ, -16 ≤ y → y ≤ 16 → |y| ≤ 4 * 2 ^ 53 := fun y ha hb => by
    rw [abs_le]; constructor <;> norm_num <;> linarith
  have h1 := hA.ge
  have h2 := hA.lt
  have ha1 := hA.lt
  obtain ⟨-, -, -, -, hh0, hh1, hhH⟩ := hA.acc (i := 0) le_rfl (by norm_num)
  have hd0 : 0 ≤ rnd (1 - a) := rnd_nonneg (by linarith)
  have hd1 : rnd (1 - a) ≤ 1 := rnd_le rep_one (by linarith)
  have hh : F64.pdiv ((F64.fin 1).sub (.fin a)) (.ofInt 300) = .ok (.fin (step3 a)) := by
    rw [F64.sub_fin, F64.of_fin' (hb _ (by linarith) (by linarith)), F64.ofInt_eq (by norm_num),
      F64.pdiv_fin (by norm_num), F64.of_fin' (hb _ ?_ ?_)]
    · unfold step3; push_cast; rfl
    · push_cast; linarith
    · push_cast; linarith
  have hne : ¬ (F64.fin a).eq (.fin 1) := by rw [F64.eq_fin]; exact ha1.ne
  set h := step3 a with hhdef
  have hH0 : 0 ≤ (1 - a) / (300 : ℤ) := by push_cast; linarith
  have hH1 : (1 - a) / ((300 : ℤ) : ℝ) ≤ 1 / 400 := by push_cast; linarith
  -- the abscissae
  have hx : ∀ i : ℤ, 0 ≤ i → i ≤ 300 → (F64.fin a).add ((F64.ofInt i).mul (.fin h)) = .fin (node3 a i) := by
    intro i h3 h4
    have hi0 : (0 : ℝ) ≤ i := by exact_mod_cast h3
    have hi1 : (i : ℝ) ≤ 300 := by exact_mod_cast h4
    have hp0 : 0 ≤ i * h := by positivity
    have hp1 : i * h ≤ 1 := by nlinarith
    rw [F64.ofInt_eq (by rw [abs_le]; constructor <;> omega), F64.mul_fin, F64.of_fin' (hb _ (by linarith) (by linarith)),
      F64.add_fin]
    have := rnd_le rep_one hp1
    have := rnd_nonneg hp0
    rw [F64.of_fin' (hb _ (by linarith) (by linarith))]
    rfl
  -- unless skipped, an abscissa is away from 1/4
  have hfar : ∀ i : ℤ, 0 ≤ i → i ≤ 300 → node3 a i ≠ 1 / 4 → 1 / 4 + 1 / 2 ^ 49 ≤ node3 a i := by
    intro i h3 h4 hne
    obtain ⟨-, x1, -, x3, -⟩ := hA.acc h3 h4
    rcases hA.edge with e1 | e
    · have hi : i ≠ 0 := by
        rintro rfl
        apply hne
        unfold node3
        rw [Int.cast_zero, zero_mul, rnd_zero, add_zero, rnd_id hA.rep, e1]
      have hi' : (1 : ℝ) ≤ i := by exact_mod_cast (by omega : 1 ≤ i)
      have q := abs_le.1 x3
      rw [show (1 - a) / ((300 : ℤ) : ℝ) = 1 / 400 by rw [e1]; norm_num] at q
      push_cast at q
      norm_num at q ⊢
      linarith
    · norm_num at e ⊢
      linarith
  -- one step of the loop
  have hstep : ∀ (i : ℤ) (S : ℝ), 0 ≤ i → i < 300 → 0 ≤ S → S ≤ 4 → ∃ S',
      (do
        let inv ← F64.pdiv (.fin 1) (.fin 4)
        let x := (F64.fin a).add ((F64.ofInt i).mul (.fin h))
        let y := (F64.fin a).add ((F64.ofInt (i + 1)).mul (.fin h))
        if ¬ (x.eq inv ∨ x.eq (.fin 1)) ∧ ¬ (y.eq inv ∨ y.eq (.fin 1)) then do
          let f1 ← tiling_integrand64 m x (.fin 4)
          let f2 ← tiling_integrand64 m y (.fin 4)
          .ok ((F64.fin S).add (((f1.add f2).mul (.fin h)).div (.fin 2)))
        else .ok (F64.fin S) : Py F64) = .ok (.fin S') ∧ 0 ≤ S' ∧ |S' - (S + panel4 a i)| ≤ 1 / 2 ^ 46 := by
    intro i S hi0 hi1 hS0 hS1
    obtain ⟨r1, x1, x2, x3, -⟩ := hA.acc hi0 (by omega)
    obtain ⟨r2, y1, y2, y3, -⟩ := hA.acc (i := i + 1) (by omega) (by omega)
    have hb1 := node_bounds (a := a) (n := 300) (i := i) h2.le hi0 (by omega) (by omega)
    have hb2 := node_bounds (a := a) (n := 300) (i := i + 1) h2.le (by omega) (by omega) (by omega)
    have hpan := abs_le.1 (panel4_near h1 h2 hi0 hi1)
    have fX := hfar i hi0 (by omega)
    have fY := hfar (i + 1) (by omega) (by omega)
    rw [inv_four64]
    simp only [Py.bind_ok]
    rw [hx i hi0 (by omega), hx (i + 1) (by omega) (by omega)]
    simp only [F64.eq_fin]
    set H := (1 - a) / ((300 : ℤ) : ℝ) with hHdef
    push_cast at hb2 y3
    have e : a + (i + 1) * H = a + i * H + H := by ring
    set t1 := a + i * H with ht1
    set t2 := a + (i + 1) * H with ht2
    set X := node3 a i with hX
    set Y := node3 a (i + 1) with hY
    have G1 := bump4_bounds (h1.trans hb1.1) hb1.2
    have G2 := bump4_bounds (h1.trans hb2.1) hb2.2
    split_ifs with hskip
    · push Not at hskip
      have fX := fX hskip.1.1
      have fY := fY hskip.2.1
      obtain ⟨f1, hf1, f10, f11, f1a⟩ := tiling_four64 hm r1 fX (lt_of_le_of_ne x2 hskip.1.2)
      obtain ⟨f2, hf2, f20, f21, f2a⟩ := tiling_four64 hm r2 fY (lt_of_le_of_ne y2 hskip.2.2)
      rw [hf1, hf2]
      simp only [Py.bind_ok]
      have L1 := bump4_lip (h1.trans hb1.1) hb1.2 (by linarith : 1 / 4 ≤ X) x2
      have L2 := bump4_lip (h1.trans hb2.1) hb2.2 (by linarith : 1 / 4 ≤ Y) y2
      have F1 : |f1 - bump4 t1| ≤ 1 / 2 ^ 42 := by
        have q1 := abs_le.1 (L1.trans (mul_le_mul_of_nonneg_left x3 (by norm_num)))
        have q2 := abs_le.1 f1a
        rw [abs_le]; norm_num at q1 q2 ⊢; constructor <;> linarith
      have F2 : |f2 - bump4 t2| ≤ 1 / 2 ^ 42 := by
        have q1 := abs_le.1 (L2.trans (mul_le_mul_of_nonneg_left y3 (by norm_num)))
        have q2 := abs_le.1 f2a
        rw [abs_le]; norm_num at q1 q2 ⊢; constructor <;> linarith
      -- f1 + f2
      have A1 := abs_le.1 (rnd_acc' (f1 + f2))
      rw [abs_of_nonneg (by linarith : 0 ≤ f1 + f2)] at A1
      have A2 := rnd_le (z := 8) (by have := rep_int (n := 8) (by norm_num); push_cast at this; exact this) (show f1 + f2 ≤ 8 by linarith)
      have A0 := rnd_nonneg (show 0 ≤ f1 + f2 by linarith)
      set v1 := rnd (f1 + f2) with hv1
      -- times h
      have M0 : 0 ≤ v1 * h := by positivity
      have M1 : v1 * h ≤ 1 := by nlinarith
      have B1 := abs_le.1 (rnd_acc' (v1 * h))
      rw [abs_of_nonneg M0] at B1
      have B0 := rnd_nonneg M0
      have B2 := rnd_le rep_one M1
      set v2 := rnd (v1 * h) with hv2
      have C1 := abs_le.1 (rnd_acc' (v2 / 2))
      rw [abs_of_nonneg (by linarith : 0 ≤ v2 / 2)] at C1
      have C0 := rnd_nonneg (show 0 ≤ v2 / 2 by linarith)
      have C2 := rnd_le rep_one (show v2 / 2 ≤ 1 by linarith)
      set v3 := rnd (v2 / 2) with hv3
      have D1 := abs_le.1 (rnd_acc' (S + v3))
      rw [abs_of_nonneg (by linarith : 0 ≤ S + v3)] at D1
      refine ⟨rnd (S + v3), ?_, rnd_nonneg (by linarith), ?_⟩
      · have h8 : ∀ y : ℝ, -16 ≤ y → y ≤ 16 → |y| ≤ 4 * 2 ^ 53 := fun y ha hb => by
          rw [abs_le]; constructor <;> norm_num <;> linarith
        rw [F64.add_fin, F64.of_fin' (h8 _ (by linarith) (by linarith)), F64.mul_fin,
          F64.of_fin' (hb _ (by linarith) (by linarith)), F64.div_fin (by norm_num),
          F64.of_fin' (hb _ (by linarith) (by linarith)), F64.add_fin, F64.of_fin' (hb _ (by linarith) (by linarith))]
      · -- collect the errors
        have q1 := abs_le.1 F1
        have q2 := abs_le.1 F2
        have q3 : |v1 - (bump4 t1 + bump4 t2)| ≤ 1 / 2 ^ 40 := by
          rw [abs_le]; norm_num at q1 q2 A1 ⊢; constructor <;> linarith
        have q4 : |v1 * h - (bump4 t1 + bump4 t2) * H| ≤ 1 / 2 ^ 40 / 399 + 8 / 2 ^ 60 := by
          have : v1 * h - (bump4 t1 + bump4 t2) * H =
              (v1 - (bump4 t1 + bump4 t2)) * h + (bump4 t1 + bump4 t2) * (h - H) := by ring
          rw [this]
          refine (abs_add_le _ _).trans ?_
          rw [abs_mul, abs_mul, abs_of_nonneg hh0, abs_of_nonneg (by linarith [G1.1, G2.1] : 0 ≤ bump4 t1 + bump4 t2)]
          have w1 : |v1 - (bump4 t1 + bump4 t2)| * h ≤ 1 / 2 ^ 40 * (1 / 399) := by gcongr
          have w2 : (bump4 t1 + bump4 t2) * |h - H| ≤ 8 * (1 / 2 ^ 60) := by gcongr; linarith [G1.2, G2.2]
          norm_num at w1 w2 ⊢
          linarith
        have q5 := abs_le.1 q4
        rw [abs_le]
        norm_num at q5 B1 C1 D1 hpan ⊢
        constructor <;> linarith
    · -- a skipped panel: all abscissae of it are close to an end point
      refine ⟨S, rfl, hS0, ?_⟩
      have q1 := abs_le.1 x3
      have q2 := abs_le.1 y3
      have hHle : H ≤ 1 / 400 := hH1
      have hedge : (t1 - 1 / 4 ≤ 1 / 390 ∨ 1 - t1 ≤ 1 / 390) ∧ (t2 - 1 / 4 ≤ 1 / 390 ∨ 1 - t2 ≤ 1 / 390) := by
        rw [e] at q2 ⊢
        norm_num at q1 q2
        have : X = 1 / 4 ∨ X = 1 ∨ Y = 1 / 4 ∨ Y = 1 := by tauto
        rcases this with h' | h' | h' | h'
        · exact ⟨.inl (by linarith), .inl (by linarith)⟩
        · exact ⟨.inr (by linarith), .inr (by linarith)⟩
        · exact ⟨.inl (by linarith), .inl (by linarith)⟩
        · exact ⟨.inr (by linarith), .inr (by linarith)⟩
      have g1 := bump4_edge (h1.trans hb1.1) hb1.2 hedge.1
      have g2 := bump4_edge (h1.trans hb2.1) hb2.2 hedge.2
      have g5 : (bump4 t1 + bump4 t2) * H ≤ (1 / 2 ^ 100 + 1 / 2 ^ 100) * 1 := by
        gcongr; linarith
      have g6 := (panel4_bounds h1 h2 hi0 hi1).1
      rw [abs_le]
      norm_num at hpan g5 ⊢
      constructor <;> linarith
  obtain ⟨s, hs, S, hS, hS0, hSa⟩ := range_loop' (a := 0) (b := 300) (s := F64.fin 0)
    (body := fun (sum : F64) (i : ℤ) => do
      let inv ← F64.pdiv (.fin 1) (.fin 4)
      let x := (F64.fin a).add ((F64.ofInt i).mul (.fin h))
      let y := (F64.fin a).add ((F64.ofInt (i + 1)).mul (.fin h))
      if ¬ (x.eq inv ∨ x.eq (.fin 1)) ∧ ¬ (y.eq inv ∨ y.eq (.fin 1)) then do
        let f1 ← tiling_integrand64 m x (.fin 4)
        let f2 ← tiling_integrand64 m y (.fin 4)
        .ok (sum.add (((f1.add f2).mul (.fin h)).div (.fin 2)))
      else .ok sum)
    (fun i s => ∃ S, s = F64.fin S ∧ 0 ≤ S ∧ (i ≤ 300 → |S - ∑ k ∈ Finset.Ico 0 i, panel4 a k| ≤ i / 2 ^ 46))
    ⟨0, rfl, le_rfl, by simp⟩
    (fun i s hi0 hi1 hP => by
      obtain ⟨S, rfl, hS0, hSa⟩ := hP
      have hSa := hSa (by omega)
      have hT := panels4_bounds h1 h2 hi0 hi1.le
      have hi300 : (i : ℝ) ≤ 300 := by exact_mod_cast hi1.le
      have hS2 : S ≤ 4 := by
        have := abs_le.1 hSa
        have : (i : ℝ) / 2 ^ 46 ≤ 300 / 2 ^ 46 := by gcongr
        norm_num at this
        linarith
      obtain ⟨S', hS', hS0', hSa'⟩ := hstep i S hi0 hi1 hS0 hS2
      refine ⟨_, hS', S', rfl, hS0', fun _ => ?_⟩
      have : Finset.Ico 0 (i + 1) = insert i (Finset.Ico 0 i) := by
        ext x; simp only [Finset.mem_Ico, Finset.mem_insert]; omega
      rw [this, Finset.sum_insert (by simp)]
      push_cast
      calc |S' - (panel4 a i + ∑ k ∈ Finset.Ico 0 i, panel4 a k)|
          = |(S' - (S + panel4 a i)) + (S - ∑ k ∈ Finset.Ico 0 i, panel4 a k)| := by congr 1; ring
        _ ≤ _ := abs_add_le _ _
        _ ≤ 1 / 2 ^ 46 + i / 2 ^ 46 := add_le_add hSa' hSa
        _ = _ := by ring)
  refine ⟨S, ?_, hS0, ?_⟩
  · unfold part_scaling_fn64
    rw [hh]
    simp only [Py.bind_ok]
    rw [if_neg hne]
    rw [← hS]
    exact hs
  · have := hSa (by norm_num)
    rw [show max (0 : ℤ) 300 = 300 by norm_num] at this
    rw [quad_eq_panels4]
    refine this.trans ?_
    norm_num

end S2wav
