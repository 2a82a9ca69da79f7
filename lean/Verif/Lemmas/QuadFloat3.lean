import Verif.Lemmas.QuadFloat2

/-! # The trapezium rule and `k_lam` in double precision for `lam = 2` -/

namespace S2wav
open Classical

/-- one panel of the exact rule -/
noncomputable def panel2 (a : ℝ) (i : ℤ) : ℝ :=
  if touches 2 300 a i then 0 else
    (gInt 2 (a + i * ((1 - a) / (300 : ℤ))) + gInt 2 (a + (i + 1) * ((1 - a) / (300 : ℤ)))) * ((1 - a) / (300 : ℤ)) / 2

theorem quad_eq_panels (a : ℝ) : quad 2 300 a = ∑ i ∈ Finset.Ico 0 300, panel2 a i := rfl

section
variable {a : ℝ} (h1 : 1 / 2 ≤ a) (h2 : a < 1) {i : ℤ} (hi0 : 0 ≤ i) (hi1 : i < 300)
include h1 h2 hi0 hi1

/-- the panel with the integrand continued by zero, instead of the skipping of panels -/
theorem panel2_near :
    |panel2 a i - (bump2 (a + i * ((1 - a) / (300 : ℤ))) + bump2 (a + (i + 1) * ((1 - a) / (300 : ℤ)))) *
      ((1 - a) / (300 : ℤ)) / 2| ≤ 1 / 2 ^ 100 := by
  have hb1 := node_bounds (a := a) (n := 300) (i := i) h2.le hi0 (by omega) (by omega)
  have hb2 := node_bounds (a := a) (n := 300) (i := i + 1) h2.le (by omega) (by omega) (by omega)
  push_cast at hb1 hb2
  unfold panel2
  push_cast
  set H := (1 - a) / 300 with hH
  have hH0 : 0 ≤ H := by rw [hH]; apply div_nonneg <;> linarith
  have hH1 : H ≤ 1 / 600 := by rw [hH]; linarith
  split_ifs with ht
  · have hedge : (a + i * H - 1 / 2 ≤ 1 / 500 ∨ 1 - (a + i * H) ≤ 1 / 500) ∧
        (a + (i + 1) * H - 1 / 2 ≤ 1 / 500 ∨ 1 - (a + (i + 1) * H) ≤ 1 / 500) := by
      unfold touches at ht
      push_cast at ht
      rw [← hH] at ht
      have e : a + (i + 1) * H = a + i * H + H := by ring
      rw [e] at ht ⊢
      rcases ht with (h | h) | (h | h)
      · exact ⟨.inl (by linarith), .inl (by linarith)⟩
      · exact ⟨.inr (by linarith), .inr (by linarith)⟩
      · exact ⟨.inl (by linarith), .inl (by linarith)⟩
      · exact ⟨.inr (by linarith), .inr (by linarith)⟩
    have g1 := bump2_edge (h1.trans hb1.1) hb1.2 hedge.1
    have g2 := bump2_edge (h1.trans hb2.1) hb2.2 hedge.2
    have g3 := (bump2_bounds (h1.trans hb1.1) hb1.2).1
    have g4 := (bump2_bounds (h1.trans hb2.1) hb2.2).1
    have g5 : (bump2 (a + i * H) + bump2 (a + (i + 1) * H)) * H ≤ (1 / 2 ^ 100 + 1 / 2 ^ 100) * 1 := by
      gcongr; linarith
    rw [zero_sub, abs_neg, abs_of_nonneg (by positivity)]
    linarith
  · unfold touches at ht
    push Not at ht
    push_cast at ht
    rw [← hH] at ht
    rw [gInt_two (lt_of_le_of_ne (h1.trans hb1.1) (Ne.symm ht.1.1)) (lt_of_le_of_ne hb1.2 ht.1.2),
      gInt_two (lt_of_le_of_ne (h1.trans hb2.1) (Ne.symm ht.2.1)) (lt_of_le_of_ne hb2.2 ht.2.2), sub_self, abs_zero]
    positivity

theorem panel2_bounds : 0 ≤ panel2 a i ∧ panel2 a i ≤ 1 / 300 := by
  have hb1 := node_bounds (a := a) (n := 300) (i := i) h2.le hi0 (by omega) (by omega)
  have hb2 := node_bounds (a := a) (n := 300) (i := i + 1) h2.le (by omega) (by omega) (by omega)
  push_cast at hb1 hb2
  unfold panel2
  push_cast
  set H := (1 - a) / 300 with hH
  have hH0 : 0 ≤ H := by rw [hH]; apply div_nonneg <;> linarith
  have hH1 : H ≤ 1 / 600 := by rw [hH]; linarith
  split_ifs with ht
  · constructor <;> norm_num
  · unfold touches at ht
    push Not at ht
    push_cast at ht
    rw [← hH] at ht
    rw [gInt_two (lt_of_le_of_ne (h1.trans hb1.1) (Ne.symm ht.1.1)) (lt_of_le_of_ne hb1.2 ht.1.2),
      gInt_two (lt_of_le_of_ne (h1.trans hb2.1) (Ne.symm ht.2.1)) (lt_of_le_of_ne hb2.2 ht.2.2)]
    have g3 := bump2_bounds (h1.trans hb1.1) hb1.2
    have g4 := bump2_bounds (h1.trans hb2.1) hb2.2
    constructor
    · have := g3.1; have := g4.1; positivity
    · have : (bump2 (a + i * H) + bump2 (a + (i + 1) * H)) * H ≤ (2 + 2) * (1 / 600) := by
        have := g3.1; have := g4.1
        gcongr; exact g3.2; exact g4.2
      linarith

end

theorem panels_bounds {a : ℝ} (h1 : 1 / 2 ≤ a) (h2 : a < 1) {i : ℤ} (hi0 : 0 ≤ i) (hi1 : i ≤ 300) :
    0 ≤ ∑ k ∈ Finset.Ico 0 i, panel2 a k ∧ ∑ k ∈ Finset.Ico 0 i, panel2 a k ≤ 1 := by
  have hk : ∀ k ∈ Finset.Ico 0 i, 0 ≤ panel2 a k ∧ panel2 a k ≤ 1 / 300 := fun k hk => by
    rw [Finset.mem_Ico] at hk
    exact panel2_bounds h1 h2 hk.1 (by omega)
  refine ⟨Finset.sum_nonneg fun k h => (hk k h).1, ?_⟩
  refine (Finset.sum_le_card_nsmul _ _ (1 / 300) fun k h => (hk k h).2).trans ?_
  rw [Int.card_Ico, nsmul_eq_mul]
  have : (((i - 0).toNat : ℕ) : ℝ) ≤ 300 := by exact_mod_cast (by omega : (i - 0).toNat ≤ 300)
  linarith

variable {m : Libm} (hm : m.Ok)
include hm

set_option maxHeartbeats 2000000 in
/-- `part_scaling_fn(a, 1.0, 300, 2.0)` in double precision, for a double `a` in `[1/2, 1)`: nothing overflows, no division
by zero occurs, and the value is that of exact arithmetic up to 2^-40. -/
theorem part_two64 {a : ℝ} (ha : Rep a) (h1 : 1 / 2 ≤ a) (h2 : a < 1) :
    ∃ S, part_scaling_fn64 m (.fin a) (.fin 1) 300 (.fin 2) = .ok (.fin S) ∧ 0 ≤ S ∧ |S - quad 2 300 a| ≤ 1 / 2 ^ 40 := by
  obtain ⟨hd1, hd2⟩ := one_sub_rep ha h1 h2
  have hb : ∀ y : ℝ, -4 ≤ y → y ≤ 4 → |y| ≤ 4 * 2 ^ 53 := fun y ha hb => by
    rw [abs_le]; constructor <;> norm_num <;> linarith
  obtain ⟨hs1, -⟩ := step_acc (n := 300) ha h1 h2 (by norm_num) (by norm_num)
  have hnode := fun {i : ℤ} => node_acc (n := 300) (i := i) ha h1 h2 (by norm_num) (by norm_num)
  have hh : F64.pdiv ((F64.fin 1).sub (.fin a)) (.ofInt 300) = .ok (.fin (stepF a 300)) := by
    rw [F64.sub_fin, F64.of_rep hd1 (hb _ (by linarith) (by linarith)), F64.ofInt_eq (by norm_num),
      F64.pdiv_fin (by norm_num), F64.of_fin' (hb _ ?_ ?_)]
    · rfl
    · push_cast; linarith
    · push_cast; linarith
  have hne : ¬ (F64.fin a).eq (.fin 1) := by rw [F64.eq_fin]; exact h2.ne
  set h := stepF a 300 with hhdef
  have hH0 : 0 ≤ (1 - a) / (300 : ℤ) := by push_cast; linarith
  have hH1 : (1 - a) / ((300 : ℤ) : ℝ) ≤ 1 / 600 := by push_cast; linarith
  have hhH : |h - (1 - a) / (300 : ℤ)| ≤ 1 / 2 ^ 62 := by
    have e : |h - (1 - a) / (300 : ℤ)| ≤ ((1 - a) / (300 : ℤ)) / (2 ^ 53 + 1) := by
      rw [le_div_iff₀ (by positivity)]; linarith
    refine e.trans ?_
    calc ((1 - a) / ((300 : ℤ) : ℝ)) / (2 ^ 53 + 1) ≤ (1 / 600) / (2 ^ 53 + 1) := by gcongr
      _ ≤ 1 / 2 ^ 62 := by norm_num
  have hh0 : 0 ≤ h := rnd_nonneg hH0
  have hh1 : h ≤ 1 / 512 := by have := abs_le.1 hhH; norm_num at this ⊢; push_cast at hH1; linarith
  -- the abscissae
  have hx : ∀ i : ℤ, 0 ≤ i → i ≤ 300 → (F64.fin a).add ((F64.ofInt i).mul (.fin h)) = .fin (nodeF a 300 i) := by
    intro i h3 h4
    have hi0 : (0 : ℝ) ≤ i := by exact_mod_cast h3
    have hi1 : (i : ℝ) ≤ 300 := by exact_mod_cast h4
    have hp0 : 0 ≤ i * h := by positivity
    have hp1 : i * h ≤ 1 := by nlinarith
    rw [F64.ofInt_eq (by rw [abs_le]; constructor <;> omega), F64.mul_fin, F64.of_fin' (hb _ (by linarith) (by linarith)),
      F64.add_fin]
    have := rnd_le rep_one hp1
    have := rnd_nonneg hp0
    rw [F64.of_fin' (hb _ (by linarith) (by linarith))]
    rfl
  -- one step of the loop
  have hstep : ∀ (i : ℤ) (S : ℝ), 0 ≤ i → i < 300 → 0 ≤ S → S ≤ 2 → ∃ S',
      (do
        let inv ← F64.pdiv (.fin 1) (.fin 2)
        let x := (F64.fin a).add ((F64.ofInt i).mul (.fin h))
        let y := (F64.fin a).add ((F64.ofInt (i + 1)).mul (.fin h))
        if ¬ (x.eq inv ∨ x.eq (.fin 1)) ∧ ¬ (y.eq inv ∨ y.eq (.fin 1)) then do
          let f1 ← tiling_integrand64 m x (.fin 2)
          let f2 ← tiling_integrand64 m y (.fin 2)
          .ok ((F64.fin S).add (((f1.add f2).mul (.fin h)).div (.fin 2)))
        else .ok (F64.fin S) : Py F64) = .ok (.fin S') ∧ 0 ≤ S' ∧ |S' - (S + panel2 a i)| ≤ 1 / 2 ^ 49 := by
    intro i S hi0 hi1 hS0 hS1
    obtain ⟨r1, x1, x2, x3⟩ := hnode hi0 (by omega)
    obtain ⟨r2, y1, y2, y3⟩ := hnode (i := i + 1) (by omega) (by omega)
    have hb1 := node_bounds (a := a) (n := 300) (i := i) h2.le hi0 (by omega) (by omega)
    have hb2 := node_bounds (a := a) (n := 300) (i := i + 1) h2.le (by omega) (by omega) (by omega)
    have hpan := abs_le.1 (panel2_near h1 h2 hi0 hi1)
    rw [inv_two64]
    simp only [Py.bind_ok]
    rw [hx i hi0 (by omega), hx (i + 1) (by omega) (by omega)]
    simp only [F64.eq_fin]
    set H := (1 - a) / ((300 : ℤ) : ℝ) with hHdef
    push_cast at hb2 y3
    have e : a + (i + 1) * H = a + i * H + H := by ring
    set t1 := a + i * H with ht1
    set t2 := a + (i + 1) * H with ht2
    set X := nodeF a 300 i with hX
    set Y := nodeF a 300 (i + 1) with hY
    have G1 := bump2_bounds (h1.trans hb1.1) hb1.2
    have G2 := bump2_bounds (h1.trans hb2.1) hb2.2
    split_ifs with hskip
    · push Not at hskip
      obtain ⟨f1, hf1, f10, f11, f1a⟩ := tiling_two64 hm r1 (lt_of_le_of_ne (h1.trans x1) (Ne.symm hskip.1.1))
        (lt_of_le_of_ne x2 hskip.1.2)
      obtain ⟨f2, hf2, f20, f21, f2a⟩ := tiling_two64 hm r2 (lt_of_le_of_ne (h1.trans y1) (Ne.symm hskip.2.1))
        (lt_of_le_of_ne y2 hskip.2.2)
      rw [hf1, hf2]
      simp only [Py.bind_ok]
      have L1 := bump2_lip (h1.trans hb1.1) hb1.2 (h1.trans x1) x2
      have L2 := bump2_lip (h1.trans hb2.1) hb2.2 (h1.trans y1) y2
      have F1 : |f1 - bump2 t1| ≤ 1 / 2 ^ 43 := by
        have q1 := abs_le.1 (L1.trans (mul_le_mul_of_nonneg_left x3 (by norm_num)))
        have q2 := abs_le.1 f1a
        rw [abs_le]; norm_num at q1 q2 ⊢; constructor <;> linarith
      have F2 : |f2 - bump2 t2| ≤ 1 / 2 ^ 43 := by
        have q1 := abs_le.1 (L2.trans (mul_le_mul_of_nonneg_left y3 (by norm_num)))
        have q2 := abs_le.1 f2a
        rw [abs_le]; norm_num at q1 q2 ⊢; constructor <;> linarith
      -- f1 + f2
      have A1 := abs_le.1 (rnd_acc' (f1 + f2))
      rw [abs_of_nonneg (by linarith : 0 ≤ f1 + f2)] at A1
      have A2 := rnd_le rep_four (show f1 + f2 ≤ 4 by linarith)
      have A0 := rnd_nonneg (show 0 ≤ f1 + f2 by linarith)
      set v1 := rnd (f1 + f2) with hv1
      -- times h
      have M0 : 0 ≤ v1 * h := by positivity
      have M1 : v1 * h ≤ 1 := by nlinarith
      have B1 := abs_le.1 (rnd_acc' (v1 * h))
      rw [abs_of_nonneg M0] at B1
      have B0 := rnd_nonneg M0
      have B2 := rnd_le rep_one M1
      set v2 := rnd (v1 * h) with hv2
      have C1 := abs_le.1 (rnd_acc' (v2 / 2))
      rw [abs_of_nonneg (by linarith : 0 ≤ v2 / 2)] at C1
      have C0 := rnd_nonneg (show 0 ≤ v2 / 2 by linarith)
      have C2 := rnd_le rep_one (show v2 / 2 ≤ 1 by linarith)
      set v3 := rnd (v2 / 2) with hv3
      have D1 := abs_le.1 (rnd_acc' (S + v3))
      rw [abs_of_nonneg (by linarith : 0 ≤ S + v3)] at D1
      refine ⟨rnd (S + v3), ?_, rnd_nonneg (by linarith), ?_⟩
      · rw [F64.add_fin, F64.of_fin' (hb _ (by linarith) (by linarith)), F64.mul_fin,
          F64.of_fin' (hb _ (by linarith) (by linarith)), F64.div_fin (by norm_num),
          F64.of_fin' (hb _ (by linarith) (by linarith)), F64.add_fin, F64.of_fin' (hb _ (by linarith) (by linarith))]
      · -- collect the errors
        have q1 := abs_le.1 F1
        have q2 := abs_le.1 F2
        have q3 : |v1 - (bump2 t1 + bump2 t2)| ≤ 1 / 2 ^ 41 := by
          rw [abs_le]; norm_num at q1 q2 A1 ⊢; constructor <;> linarith
        have q4 : |v1 * h - (bump2 t1 + bump2 t2) * H| ≤ 1 / 2 ^ 50 + 4 / 2 ^ 62 := by
          have : v1 * h - (bump2 t1 + bump2 t2) * H =
              (v1 - (bump2 t1 + bump2 t2)) * h + (bump2 t1 + bump2 t2) * (h - H) := by ring
          rw [this]
          refine (abs_add_le _ _).trans ?_
          rw [abs_mul, abs_mul, abs_of_nonneg hh0, abs_of_nonneg (by linarith [G1.1, G2.1] : 0 ≤ bump2 t1 + bump2 t2)]
          have w1 : |v1 - (bump2 t1 + bump2 t2)| * h ≤ 1 / 2 ^ 41 * (1 / 512) := by gcongr
          have w2 : (bump2 t1 + bump2 t2) * |h - H| ≤ 4 * (1 / 2 ^ 62) := by gcongr; linarith [G1.2, G2.2]
          norm_num at w1 w2 ⊢
          linarith
        have q5 := abs_le.1 q4
        rw [abs_le]
        norm_num at q5 B1 C1 D1 hpan ⊢
        constructor <;> linarith
    · -- a skipped panel: all abscissae of it are close to an end point
      refine ⟨S, rfl, hS0, ?_⟩
      have q1 := abs_le.1 x3
      have q2 := abs_le.1 y3
      have hHle : H ≤ 1 / 600 := hH1
      have hedge : (t1 - 1 / 2 ≤ 1 / 500 ∨ 1 - t1 ≤ 1 / 500) ∧ (t2 - 1 / 2 ≤ 1 / 500 ∨ 1 - t2 ≤ 1 / 500) := by
        rw [e] at q2 ⊢
        norm_num at q1 q2
        have : X = 1 / 2 ∨ X = 1 ∨ Y = 1 / 2 ∨ Y = 1 := by tauto
        rcases this with h' | h' | h' | h'
        · exact ⟨.inl (by linarith), .inl (by linarith)⟩
        · exact ⟨.inr (by linarith), .inr (by linarith)⟩
        · exact ⟨.inl (by linarith), .inl (by linarith)⟩
        · exact ⟨.inr (by linarith), .inr (by linarith)⟩
      have g1 := bump2_edge (h1.trans hb1.1) hb1.2 hedge.1
      have g2 := bump2_edge (h1.trans hb2.1) hb2.2 hedge.2
      have g5 : (bump2 t1 + bump2 t2) * H ≤ (1 / 2 ^ 100 + 1 / 2 ^ 100) * 1 := by
        gcongr; linarith
      have g6 := (panel2_bounds h1 h2 hi0 hi1).1
      rw [abs_le]
      norm_num at hpan g5 ⊢
      constructor <;> linarith
  obtain ⟨s, hs, S, hS, hS0, hSa⟩ := range_loop' (a := 0) (b := 300) (s := F64.fin 0)
    (body := fun (sum : F64) (i : ℤ) => do
      let inv ← F64.pdiv (.fin 1) (.fin 2)
      let x := (F64.fin a).add ((F64.ofInt i).mul (.fin h))
      let y := (F64.fin a).add ((F64.ofInt (i + 1)).mul (.fin h))
      if ¬ (x.eq inv ∨ x.eq (.fin 1)) ∧ ¬ (y.eq inv ∨ y.eq (.fin 1)) then do
        let f1 ← tiling_integrand64 m x (.fin 2)
        let f2 ← tiling_integrand64 m y (.fin 2)
        .ok (sum.add (((f1.add f2).mul (.fin h)).div (.fin 2)))
      else .ok sum)
    (fun i s => ∃ S, s = F64.fin S ∧ 0 ≤ S ∧ (i ≤ 300 → |S - ∑ k ∈ Finset.Ico 0 i, panel2 a k| ≤ i / 2 ^ 49))
    ⟨0, rfl, le_rfl, by simp⟩
    (fun i s hi0 hi1 hP => by
      obtain ⟨S, rfl, hS0, hSa⟩ := hP
      have hSa := hSa (by omega)
      have hT := panels_bounds h1 h2 hi0 hi1.le
      have hi300 : (i : ℝ) ≤ 300 := by exact_mod_cast hi1.le
      have hS2 : S ≤ 2 := by
        have := abs_le.1 hSa
        have : (i : ℝ) / 2 ^ 49 ≤ 300 / 2 ^ 49 := by gcongr
        norm_num at this
        linarith
      obtain ⟨S', hS', hS0', hSa'⟩ := hstep i S hi0 hi1 hS0 hS2
      refine ⟨_, hS', S', rfl, hS0', fun _ => ?_⟩
      have : Finset.Ico 0 (i + 1) = insert i (Finset.Ico 0 i) := by
        ext x; simp only [Finset.mem_Ico, Finset.mem_insert]; omega
      rw [this, Finset.sum_insert (by simp)]
      push_cast
      calc |S' - (panel2 a i + ∑ k ∈ Finset.Ico 0 i, panel2 a k)|
          = |(S' - (S + panel2 a i)) + (S - ∑ k ∈ Finset.Ico 0 i, panel2 a k)| := by congr 1; ring
        _ ≤ _ := abs_add_le _ _
        _ ≤ 1 / 2 ^ 49 + i / 2 ^ 49 := add_le_add hSa' hSa
        _ = _ := by ring)
  refine ⟨S, ?_, hS0, ?_⟩
  · unfold part_scaling_fn64
    rw [hh]
    simp only [Py.bind_ok]
    rw [if_neg hne]
    rw [← hS]
    exact hs
  · have := hSa (by norm_num)
    rw [show max (0 : ℤ) 300 = 300 by norm_num] at this
    rw [quad_eq_panels]
    refine this.trans ?_
    norm_num

end S2wav
