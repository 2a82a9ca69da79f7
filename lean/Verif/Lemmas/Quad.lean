import Verif.Lemmas.KLam
import Mathlib.MeasureTheory.Integral.IntervalIntegral.Basic
import Mathlib.MeasureTheory.Integral.IntervalIntegral.FundThmCalculus
import Mathlib.Analysis.SpecialFunctions.Log.Deriv
import Mathlib.Analysis.Calculus.Deriv.MeanValue
import Mathlib.Analysis.SpecialFunctions.ExpDeriv
import Mathlib.Analysis.Complex.ExponentialBounds

/-! # Accuracy of the trapezium rule behind `k_lam`

In the coordinate `t = sArg lam x ∈ [-1, 1]` the tiling integrand is, up to a constant,
`c exp(-2/(1-t²)) / (t + c)` with `c = (lam+1)/(lam-1) > 1`. -/

namespace S2wav
open MeasureTheory intervalIntegral

/-! ## Functions with one peak -/

/-- a function rising to `p` and falling after it -/
structure Hump (f : ℝ → ℝ) (p : ℝ) : Prop where
  nonneg : ∀ x, 0 ≤ f x
  up : ∀ x y, x ≤ y → y ≤ p → f x ≤ f y
  down : ∀ x y, p ≤ x → x ≤ y → f y ≤ f x

theorem Hump.intervalIntegrable {f : ℝ → ℝ} {p : ℝ} (h : Hump f p) (a b : ℝ) : IntervalIntegrable f volume a b := by
  have key : ∀ a, IntervalIntegrable f volume a p := by
    intro a
    rcases le_total a p with ha | ha
    · refine MonotoneOn.intervalIntegrable fun x hx y hy hxy => ?_
      rw [Set.uIcc_of_le ha] at hx hy
      exact h.up x y hxy hy.2
    · refine AntitoneOn.intervalIntegrable fun x hx y hy hxy => ?_
      rw [Set.uIcc_of_ge ha] at hx hy
      exact h.down x y hx.1 hxy
  exact (key a).trans (key b).symm

/-! ## The bump in the coordinate `t` -/

/-- `c exp(-2/(1-t²)) / (t+c)` inside `(-1, 1)`, zero outside -/
noncomputable def bumpT (c t : ℝ) : ℝ := if -1 < t ∧ t < 1 then c * Real.exp (-2 / (1 - t ^ 2)) / (t + c) else 0

section
variable {c : ℝ}

theorem bumpT_nonneg (hc : 1 < c) (t : ℝ) : 0 ≤ bumpT c t := by
  unfold bumpT
  split_ifs with h
  · have : 0 < t + c := by linarith
    positivity
  · exact le_rfl

/-- numerator of minus the logarithmic derivative -/
def qpoly (c t : ℝ) : ℝ := t ^ 4 + 2 * t ^ 2 + 4 * c * t + 1

theorem qpoly_convex {x y z : ℝ} (h1 : x ≤ y) (h2 : y ≤ z) :
    (z - x) * qpoly c y ≤ (z - y) * qpoly c x + (y - x) * qpoly c z := by
  unfold qpoly
  have key : (z - y) * (x ^ 4 + 2 * x ^ 2 + 4 * c * x + 1) + (y - x) * (z ^ 4 + 2 * z ^ 2 + 4 * c * z + 1) -
      (z - x) * (y ^ 4 + 2 * y ^ 2 + 4 * c * y + 1) =
      (z - y) * (y - x) * (z - x) * (x ^ 2 + y ^ 2 + z ^ 2 + x * y + y * z + x * z + 2) := by ring
  have : 0 ≤ (z - y) * (y - x) * (z - x) * (x ^ 2 + y ^ 2 + z ^ 2 + x * y + y * z + x * z + 2) := by
    have a1 : 0 ≤ z - y := by linarith
    have a2 : 0 ≤ y - x := by linarith
    have a3 : 0 ≤ z - x := by linarith
    have a4 : 0 ≤ x ^ 2 + y ^ 2 + z ^ 2 + x * y + y * z + x * z + 2 := by
      nlinarith [sq_nonneg (x + y), sq_nonneg (y + z), sq_nonneg (x + z)]
    positivity
  linarith

theorem exists_peak (hc : 1 < c) : ∃ p, -1 < p ∧ p < 0 ∧ (∀ t, -1 < t → t ≤ p → qpoly c t ≤ 0) ∧
    ∀ t, p ≤ t → 0 ≤ qpoly c t := by
  have hcont : ContinuousOn (qpoly c) (Set.Icc (-1) 0) := by
    unfold qpoly; fun_prop
  have h0 : qpoly c (-1) < 0 := by unfold qpoly; linarith
  have h1 : 0 < qpoly c 0 := by unfold qpoly; norm_num
  obtain ⟨p, hp, hq⟩ := intermediate_value_Icc (by norm_num : (-1 : ℝ) ≤ 0) hcont ⟨h0.le, h1.le⟩
  have hp1 : -1 < p := lt_of_le_of_ne hp.1 (by rintro rfl; linarith)
  have hp0 : p < 0 := lt_of_le_of_ne hp.2 (by rintro rfl; linarith)
  refine ⟨p, hp1, hp0, fun t h2 h3 => ?_, fun t h2 => ?_⟩
  · have := qpoly_convex (c := c) h2.le h3
    rw [hq] at this
    by_contra hneg
    push Not at hneg
    nlinarith
  · have := qpoly_convex (c := c) hp1.le h2
    rw [hq] at this
    by_contra hneg
    push Not at hneg
    nlinarith

theorem bumpT_hasDerivAt {t : ℝ} (h1 : -1 < t) (h2 : t < 1) (hc : 1 < c) :
    HasDerivAt (fun t => c * Real.exp (-2 / (1 - t ^ 2)) / (t + c))
      (-(c * Real.exp (-2 / (1 - t ^ 2)) * qpoly c t / ((1 - t ^ 2) ^ 2 * (t + c) ^ 2))) t := by
  have hd : 1 - t ^ 2 ≠ 0 := by nlinarith
  have hs : t + c ≠ 0 := by linarith
  have e1 : HasDerivAt (fun t : ℝ => 1 - t ^ 2) (-(2 * t)) t := by
    have := (hasDerivAt_pow 2 t).const_sub 1
    simpa using this
  have e2 := ((hasDerivAt_const t (-2 : ℝ)).div e1 hd).exp
  have e3 := (e2.const_mul c).div ((hasDerivAt_id t).add_const c) hs
  refine e3.congr_deriv ?_
  simp only [Pi.div_apply, id]
  unfold qpoly
  field_simp
  ring

theorem bumpT_hump (hc : 1 < c) : ∃ p, -1 < p ∧ p < 0 ∧ Hump (bumpT c) p := by
  obtain ⟨p, h1, h2, h3, h4⟩ := exists_peak hc
  have hpos : ∀ t, -1 < t → t < 1 → 0 ≤ c * Real.exp (-2 / (1 - t ^ 2)) / ((1 - t ^ 2) ^ 2 * (t + c) ^ 2) := by
    intro t _ _; positivity
  have hup : MonotoneOn (fun t => c * Real.exp (-2 / (1 - t ^ 2)) / (t + c)) (Set.Ioc (-1) p) := by
    refine monotoneOn_of_deriv_nonneg (convex_Ioc _ _) (fun t ht => ?_) (fun t ht => ?_) (fun t ht => ?_)
    · exact (bumpT_hasDerivAt ht.1 (by linarith [ht.2]) hc).continuousAt.continuousWithinAt
    · rw [interior_Ioc] at ht
      exact (bumpT_hasDerivAt ht.1 (by linarith [ht.2]) hc).differentiableAt.differentiableWithinAt
    · rw [interior_Ioc] at ht
      rw [(bumpT_hasDerivAt ht.1 (by linarith [ht.2]) hc).deriv]
      have := mul_nonneg (hpos t ht.1 (by linarith [ht.2])) (neg_nonneg.2 (h3 t ht.1 ht.2.le))
      calc (0 : ℝ) ≤ _ := this
        _ = _ := by ring
  have hdn : AntitoneOn (fun t => c * Real.exp (-2 / (1 - t ^ 2)) / (t + c)) (Set.Ico p 1) := by
    refine antitoneOn_of_deriv_nonpos (convex_Ico _ _) (fun t ht => ?_) (fun t ht => ?_) (fun t ht => ?_)
    · exact (bumpT_hasDerivAt (by linarith [ht.1]) ht.2 hc).continuousAt.continuousWithinAt
    · rw [interior_Ico] at ht
      exact (bumpT_hasDerivAt (by linarith [ht.1]) ht.2 hc).differentiableAt.differentiableWithinAt
    · rw [interior_Ico] at ht
      rw [(bumpT_hasDerivAt (by linarith [ht.1]) ht.2 hc).deriv]
      have := mul_nonneg (hpos t (by linarith [ht.1]) ht.2) (h4 t ht.1.le)
      rw [neg_nonpos]
      calc (0 : ℝ) ≤ _ := this
        _ = _ := by ring
  refine ⟨p, h1, h2, bumpT_nonneg hc, fun x y hxy hy => ?_, fun x y hx hxy => ?_⟩
  · by_cases hx : -1 < x
    · have := hup ⟨hx, hxy.trans hy⟩ ⟨hx.trans_le hxy, hy⟩ hxy
      rw [bumpT, bumpT, if_pos ⟨hx, by linarith⟩, if_pos ⟨by linarith, by linarith⟩]
      exact this
    · rw [bumpT, if_neg (fun h => hx h.1)]
      exact bumpT_nonneg hc y
  · by_cases hy : y < 1
    · have := hdn ⟨hx, hxy.trans_lt hy⟩ ⟨hx.trans hxy, hy⟩ hxy
      rw [bumpT, bumpT, if_pos ⟨by linarith, hy⟩, if_pos ⟨by linarith, by linarith⟩]
      exact this
    · rw [bumpT, if_neg (fun h => hy h.2)]
      exact bumpT_nonneg hc x

/-! ## Numerical bounds -/

theorem le_exp_neg {x b : ℝ} (hb : 0 < b) (h : Real.exp x ≤ b⁻¹) : b ≤ Real.exp (-x) := by
  rw [Real.exp_neg]; exact (le_inv_comm₀ hb (Real.exp_pos _)).2 h

/-- lower bound of `exp(-m/k)` from a power comparison -/
theorem le_exp_neg_div {m k : ℕ} (hk : k ≠ 0) {b : ℝ} (hb : 0 < b) (h : (2.7182818286 : ℝ) ^ m ≤ b⁻¹ ^ k) :
    b ≤ Real.exp (-(m / k : ℝ)) := by
  refine le_exp_neg hb ?_
  have e : Real.exp (m / k : ℝ) ^ k = Real.exp 1 ^ m := by
    have hk' : (k : ℝ) ≠ 0 := by exact_mod_cast hk
    rw [← Real.exp_nat_mul, ← Real.exp_nat_mul]
    congr 1
    field_simp
  have : Real.exp (m / k : ℝ) ^ k ≤ b⁻¹ ^ k := by
    rw [e]
    exact (pow_le_pow_left₀ (Real.exp_pos _).le Real.exp_one_lt_d9.le m).trans h
  exact le_of_pow_le_pow_left₀ hk (by positivity) this

/-- `E(u)` is decreasing in `|u|` -/
theorem exp_bump_ge {t u b : ℝ} (hu : 0 ≤ u) (hu1 : u < 1) (h1 : -u ≤ t) (h2 : t ≤ u) (hb : b ≤ Real.exp (-2 / (1 - u ^ 2))) :
    b ≤ Real.exp (-2 / (1 - t ^ 2)) := by
  refine hb.trans (Real.exp_le_exp.2 ?_)
  have hd : 0 < 1 - u ^ 2 := by nlinarith
  have h3 : 1 - u ^ 2 ≤ 1 - t ^ 2 := by nlinarith
  rw [neg_div, neg_div, neg_le_neg_iff]
  exact div_le_div_of_nonneg_left (by norm_num) hd h3

theorem bumpT_ge_neg (hc : 1 < c) {t u b : ℝ} (hu1 : u < 1) (h1 : -u ≤ t) (h2 : t ≤ 0)
    (hb0 : 0 ≤ b) (hb : b ≤ Real.exp (-2 / (1 - u ^ 2))) : b ≤ bumpT c t := by
  have hE := exp_bump_ge (by linarith) hu1 h1 (by linarith) hb
  rw [bumpT, if_pos ⟨by linarith, by linarith⟩, le_div_iff₀ (by linarith)]
  nlinarith

theorem bumpT_int (hc : 1 < c) (a b : ℝ) : IntervalIntegrable (bumpT c) volume a b := by
  obtain ⟨p, _, _, h⟩ := bumpT_hump hc
  exact h.intervalIntegrable a b

theorem integral_ge (hc : 1 < c) {a b m : ℝ} (hab : a ≤ b) (h : ∀ t, a ≤ t → t ≤ b → m ≤ bumpT c t) :
    (b - a) * m ≤ ∫ t in a..b, bumpT c t := by
  have := integral_mono_on (μ := volume) hab (f := fun _ => m) (g := bumpT c) (by simp) (bumpT_int hc a b)
    (fun t ht => h t ht.1 ht.2)
  simpa using this

theorem integral_nonneg' (hc : 1 < c) {a b : ℝ} (hab : a ≤ b) : 0 ≤ ∫ t in a..b, bumpT c t := by
  have := integral_ge hc hab (m := 0) (fun t _ _ => bumpT_nonneg hc t)
  simpa using this

end

/-! ## The quadrature of the code -/

theorem touches_iff {lam : ℝ} {n : ℤ} {a : ℝ} {i : ℤ} (h1 : 1 / lam ≤ a) (h2 : a < 1) (hn : 1 ≤ n) (h0 : 0 ≤ i) (hi : i < n) :
    touches lam n a i ↔ i = n - 1 ∨ (i = 0 ∧ a = 1 / lam) := by
  have hn' : (0 : ℝ) < n := by exact_mod_cast (by omega : 0 < n)
  have hh : 0 < (1 - a) / n := div_pos (by linarith) hn'
  have hnn : (n : ℝ) * ((1 - a) / n) = 1 - a := by field_simp
  have hi0 : (0 : ℝ) ≤ i := by exact_mod_cast h0
  have hi1 : (i : ℝ) + 1 ≤ n := by exact_mod_cast hi
  constructor
  · intro h
    by_contra hc
    push Not at hc
    have hlt : (i : ℝ) + 1 < n := by
      have : i + 1 < n := by omega
      exact_mod_cast this
    rcases h with (h | h) | (h | h)
    · have : 0 ≤ (i : ℝ) * ((1 - a) / n) := by positivity
      have ha : a = 1 / lam := by linarith
      have hi : (i : ℝ) * ((1 - a) / n) = 0 := by linarith
      rcases mul_eq_zero.1 hi with h5 | h5
      · exact hc.2 (by exact_mod_cast h5) ha
      · exact hh.ne' h5
    · nlinarith
    · nlinarith
    · nlinarith
  · rintro (h | ⟨h, ha⟩)
    · right; right
      have : (i : ℝ) + 1 = n := by rw [h]; push_cast; ring
      rw [this]; linarith
    · left; left
      rw [h, ha]; simp


theorem sum_Ico_int {M : Type} [AddCommMonoid M] (f : ℤ → M) (n : ℕ) :
    ∑ i ∈ Finset.Ico (0 : ℤ) n, f i = ∑ i ∈ Finset.range n, f i := by
  induction n with
  | zero => simp
  | succ n ih =>
    have : Finset.Ico (0 : ℤ) ((n + 1 : ℕ) : ℤ) = insert (n : ℤ) (Finset.Ico (0 : ℤ) n) := by
      ext x; simp only [Finset.mem_Ico, Finset.mem_insert]; omega
    rw [this, Finset.sum_insert (by simp), Finset.sum_range_succ, ih, add_comm]

/-- the shift `(lam+1)/(lam-1)` -/
noncomputable def shiftC (lam : ℝ) : ℝ := (lam + 1) / (lam - 1)

section
variable {lam : ℝ}

theorem one_lt_shiftC (hlam : 1 < lam) : 1 < shiftC lam := by
  rw [shiftC, lt_div_iff₀ (by linarith)]; linarith

theorem sArg_node (hlam : 1 < lam) (a x : ℝ) {n : ℝ} (hn : n ≠ 0) :
    sArg lam (a + x * ((1 - a) / n)) = sArg lam a + x * ((1 - sArg lam a) / n) := by
  have h1 : lam - 1 ≠ 0 := by linarith
  have h2 : lam ≠ 0 := by linarith
  unfold sArg
  field_simp
  ring

theorem sArg_edge (hlam : 1 < lam) : sArg lam (1 / lam) = -1 := by unfold sArg; ring

theorem sArg_one (hlam : 1 < lam) : sArg lam 1 = 1 := by
  have h1 : lam - 1 ≠ 0 := by linarith
  have h2 : lam ≠ 0 := by linarith
  unfold sArg
  field_simp
  ring

theorem sArg_mono (hlam : 1 < lam) {x y : ℝ} : sArg lam x ≤ sArg lam y ↔ x ≤ y := by
  have hl : 0 < lam - 1 := by linarith
  have hc : 0 < 2 * lam / (lam - 1) := by positivity
  unfold sArg
  rw [sub_le_sub_iff_right, mul_le_mul_iff_left₀ hc, sub_le_sub_iff_right]

theorem sArg_lt (hlam : 1 < lam) {x y : ℝ} : sArg lam x < sArg lam y ↔ x < y := by
  rw [← not_le, ← not_le, sArg_mono hlam]

theorem gInt_bumpT (hlam : 1 < lam) {x : ℝ} (h1 : 1 / lam < x) (h2 : x < 1) (a : ℝ) (n : ℝ) :
    gInt lam x * ((1 - a) / n) = bumpT (shiftC lam) (sArg lam x) * ((1 - sArg lam a) / n) / shiftC lam := by
  have hb := sArg_bounds hlam h1 h2
  have h3 : lam - 1 ≠ 0 := by linarith
  have h4 : lam ≠ 0 := by linarith
  have h5 : lam + 1 ≠ 0 := by linarith
  have hx : x ≠ 0 := by
    have : 0 < 1 / lam := by positivity
    linarith
  have e1 : sArg lam x + shiftC lam = 2 * lam * x / (lam - 1) := by
    unfold sArg shiftC; field_simp; ring
  have e2 : 1 - sArg lam a = (1 - a) * (2 * lam / (lam - 1)) := by
    unfold sArg; field_simp; ring
  have hs : shiftC lam ≠ 0 := by have := one_lt_shiftC hlam; linarith
  rw [bumpT, if_pos hb, e1, e2, gInt]
  field_simp

theorem quad_panel (hlam : 1 < lam) {a : ℝ} {n : ℕ} (h1 : 1 / lam ≤ a) (h2 : a < 1) {i : ℕ} (hi : i < n)
    (ht : ¬ touches lam n a i) :
    (gInt lam (a + (i : ℤ) * ((1 - a) / (n : ℤ))) + gInt lam (a + ((i : ℤ) + 1) * ((1 - a) / (n : ℤ)))) * ((1 - a) / (n : ℤ)) / 2 =
      (bumpT (shiftC lam) (sArg lam a + i * ((1 - sArg lam a) / n)) +
        bumpT (shiftC lam) (sArg lam a + (i + 1) * ((1 - sArg lam a) / n))) / 2 * ((1 - sArg lam a) / n) / shiftC lam := by
  have hn0 : (n : ℝ) ≠ 0 := by exact_mod_cast (by omega : n ≠ 0)
  have hb1 := node_bounds (a := a) (n := n) (i := i) h2.le (by omega) (by omega) (by omega)
  have hb2 := node_bounds (a := a) (n := n) (i := i + 1) h2.le (by omega) (by omega) (by omega)
  unfold touches at ht
  push Not at ht
  push_cast at hb1 hb2 ht ⊢
  rw [add_mul, gInt_bumpT hlam (lt_of_le_of_ne (h1.trans hb1.1) (Ne.symm ht.1.1)) (lt_of_le_of_ne hb1.2 ht.1.2),
    gInt_bumpT hlam (lt_of_le_of_ne (h1.trans hb2.1) (Ne.symm ht.2.1)) (lt_of_le_of_ne hb2.2 ht.2.2), sArg_node hlam _ _ hn0,
    sArg_node hlam _ _ hn0]
  ring

end
end S2wav
