import Verif.Lemmas.HarmOps
import Verif.Lemmas.FloatRel
import Verif.Lemmas.FloatTiling

/-! # Error analysis of sums of products -/

namespace S2wav
open Classical

theorem uu_pos : 0 < uu := by unfold uu; positivity
theorem eta_pos : 0 < eta := by unfold eta; positivity

theorem one_le_up (k : ℕ) : 1 ≤ (1 + uu) ^ k := one_le_pow₀ (by linarith [uu_pos])

theorem up_mono {k k' : ℕ} (h : k ≤ k') : (1 + uu) ^ k ≤ (1 + uu) ^ k' := pow_le_pow_right₀ (by linarith [uu_pos]) h

theorem uu_eq : uu = 1 / 2 ^ 50 := by
  unfold uu
  rw [show (-50 : ℤ) = -((50 : ℕ) : ℤ) by norm_num, zpow_neg, zpow_natCast, one_div]

theorem up_le {k : ℕ} (hk : k ≤ 2 ^ 21) : (1 + uu) ^ k ≤ 1 + 2 * k * uu := by
  have hu := uu_pos
  have h1 : (k : ℝ) * uu ≤ 1 / 2 := by
    have : (k : ℝ) ≤ 2 ^ 21 := by exact_mod_cast hk
    rw [uu_eq]
    calc (k : ℝ) * (1 / 2 ^ 50) ≤ 2 ^ 21 * (1 / 2 ^ 50) := by gcongr
      _ ≤ 1 / 2 := by norm_num
  have h2 : (1 + uu) ^ k ≤ Real.exp (k * uu) := by
    rw [mul_comm, Real.exp_mul, Real.rpow_natCast]
    exact pow_le_pow_left₀ (by linarith) (by linarith [Real.add_one_le_exp uu]) k
  have h0 : 0 ≤ (k : ℝ) * uu := by positivity
  have h3 := Real.abs_exp_sub_one_le (x := k * uu) (by rw [abs_of_nonneg h0]; linarith)
  rw [abs_of_nonneg h0] at h3
  have := (abs_le.1 h3).2
  linarith

theorem up_le_two {k : ℕ} (hk : k ≤ 2 ^ 21) : (1 + uu) ^ k ≤ 2 := by
  refine (up_le hk).trans ?_
  have : (k : ℝ) ≤ 2 ^ 21 := by exact_mod_cast hk
  rw [uu_eq]
  calc 1 + 2 * (k : ℝ) * (1 / 2 ^ 50) ≤ 1 + 2 * 2 ^ 21 * (1 / 2 ^ 50) := by gcongr
    _ ≤ 2 := by norm_num

/-- `y` is a computed version of `x`: `x` has modulus at most `A`, and `k` roundings were made on the way, on quantities
of modulus at most `T` in total (`T` exceeds `A` by what underflows may have added) -/
def Nr (k : ℕ) (A T : ℝ) (y x : ℂ) : Prop := ‖x‖ ≤ A ∧ A ≤ T ∧ ‖y - x‖ + A ≤ (1 + uu) ^ k * T

namespace Nr
variable {k k' : ℕ} {A T B S : ℝ} {x y x' y' z : ℂ}

theorem nonneg (h : Nr k A T y x) : 0 ≤ A ∧ 0 ≤ T := ⟨(norm_nonneg x).trans h.1, ((norm_nonneg x).trans h.1).trans h.2.1⟩

theorem norm_le (h : Nr k A T y x) : ‖y‖ ≤ (1 + uu) ^ k * T := by
  have h1 := norm_add_le (y - x) x
  rw [sub_add_cancel] at h1
  linarith [h.1, h.2.2]

theorem err (h : Nr k A T y x) : ‖y - x‖ ≤ (1 + uu) ^ k * T - A := by linarith [h.2.2]

theorem refl (h : ‖x‖ ≤ A) : Nr 0 A A x x := ⟨h, le_rfl, by rw [sub_self, norm_zero, pow_zero, one_mul, zero_add]⟩

theorem mono (h : Nr k A T y x) (hk : k ≤ k') (hT : T ≤ S) : Nr k' A S y x :=
  ⟨h.1, h.2.1.trans hT, h.2.2.trans (mul_le_mul (up_mono hk) hT h.nonneg.2 (by linarith [one_le_up k']))⟩

theorem mul (h : Nr k A T y x) (h' : Nr k' B S y' x') (hz : ‖z - y * y'‖ ≤ uu * (‖y‖ * ‖y'‖) + eta) :
    Nr (k + k' + 1) (A * B) (T * S + eta) z (x * x') := by
  have hp := one_le_up k
  have hq := one_le_up k'
  obtain ⟨hA, hT⟩ := h.nonneg
  obtain ⟨hB, hS⟩ := h'.nonneg
  have hu := uu_pos
  have he := eta_pos
  have hX := h.norm_le
  have hY := h'.norm_le
  have e1 := h.err
  have e2 := h'.err
  refine ⟨?_, ?_, ?_⟩
  · rw [norm_mul]; exact mul_le_mul h.1 h'.1 (norm_nonneg _) hA
  · have := mul_le_mul h.2.1 h'.2.1 hB hT
    linarith
  rw [pow_succ, pow_add]
  set p := (1 + uu) ^ k
  set q := (1 + uu) ^ k'
  have hpT : 0 ≤ p * T := by positivity
  have hqS : 0 ≤ q * S := by positivity
  have s1 : ‖z - x * x'‖ ≤ ‖z - y * y'‖ + (‖y - x‖ * ‖y'‖ + ‖x‖ * ‖y' - x'‖) := by
    have : z - x * x' = (z - y * y') + ((y - x) * y' + x * (y' - x')) := by ring
    rw [this]
    refine (norm_add_le _ _).trans (add_le_add le_rfl ((norm_add_le _ _).trans ?_))
    rw [norm_mul, norm_mul]
  have s2 : ‖y‖ * ‖y'‖ ≤ (p * T) * (q * S) := mul_le_mul hX hY (norm_nonneg _) hpT
  have s3 : ‖y - x‖ * ‖y'‖ ≤ (p * T - A) * (q * S) := mul_le_mul e1 hY (norm_nonneg _) ((norm_nonneg _).trans e1)
  have s4 : ‖x‖ * ‖y' - x'‖ ≤ A * (q * S - B) := mul_le_mul h.1 e2 (norm_nonneg _) hA
  have s5 : uu * (‖y‖ * ‖y'‖) ≤ uu * ((p * T) * (q * S)) := mul_le_mul_of_nonneg_left s2 hu.le
  have s6 : eta ≤ p * q * (1 + uu) * eta := by
    have : 1 ≤ p * q * (1 + uu) := one_le_mul_of_one_le_of_one_le (one_le_mul_of_one_le_of_one_le hp hq) (by linarith)
    nlinarith
  calc ‖z - x * x'‖ + A * B ≤ uu * ((p * T) * (q * S)) + eta + ((p * T - A) * (q * S) + A * (q * S - B)) + A * B := by linarith
    _ = (p * q * (1 + uu)) * (T * S) + eta := by ring
    _ ≤ (p * q * (1 + uu)) * (T * S + eta) := by rw [mul_add]; linarith

theorem add (h : Nr k A T y x) (h' : Nr k B S y' x') (hz : ‖z - (y + y')‖ ≤ uu * ‖y + y'‖ + eta) :
    Nr (k + 1) (A + B) (T + S + eta) z (x + x') := by
  have hp := one_le_up k
  obtain ⟨hA, hT⟩ := h.nonneg
  obtain ⟨hB, hS⟩ := h'.nonneg
  have hu := uu_pos
  have he := eta_pos
  have hX := h.norm_le
  have hY := h'.norm_le
  have e1 := h.err
  have e2 := h'.err
  refine ⟨(norm_add_le _ _).trans (add_le_add h.1 h'.1), by linarith [h.2.1, h'.2.1], ?_⟩
  rw [pow_succ]
  set p := (1 + uu) ^ k
  have s1 : ‖z - (x + x')‖ ≤ ‖z - (y + y')‖ + (‖y - x‖ + ‖y' - x'‖) := by
    have : z - (x + x') = (z - (y + y')) + ((y - x) + (y' - x')) := by ring
    rw [this]
    exact (norm_add_le _ _).trans (add_le_add le_rfl (norm_add_le _ _))
  have s2 : ‖y + y'‖ ≤ p * T + p * S := (norm_add_le _ _).trans (add_le_add hX hY)
  have s5 : uu * ‖y + y'‖ ≤ uu * (p * T + p * S) := mul_le_mul_of_nonneg_left s2 hu.le
  have s6 : eta ≤ p * (1 + uu) * eta := by
    have : 1 ≤ p * (1 + uu) := one_le_mul_of_one_le_of_one_le hp (by linarith)
    nlinarith
  calc ‖z - (x + x')‖ + (A + B) ≤ uu * (p * T + p * S) + eta + (p * T - A + (p * S - B)) + (A + B) := by linarith
    _ = p * (1 + uu) * (T + S) + eta := by ring
    _ ≤ p * (1 + uu) * (T + S + eta) := by rw [mul_add _ (T + S)]; linarith

/-- a real constant computed to `k` times `uu` relative accuracy -/
theorem const {c c' : ℝ} (k : ℕ) (hc : 0 ≤ c) (h : |c' - c| ≤ k * uu * c) : Nr k c c (c' : ℂ) (c : ℂ) := by
  refine ⟨by rw [Complex.norm_real, Real.norm_of_nonneg hc], le_rfl, ?_⟩
  rw [← Complex.ofReal_sub, Complex.norm_real, Real.norm_eq_abs]
  have h1 : 1 + k * uu ≤ (1 + uu) ^ k := one_add_mul_le_pow (by linarith [uu_pos]) k
  nlinarith

end Nr

/-- sum of products of computed quantities -/
theorem Nr.dot {ι : Type} (l : List ι) {k k' : ℕ} {a b a' b' : ι → ℂ} {A T B S : ι → ℝ} {z : ℂ}
    (h : ∀ i ∈ l, Nr k (A i) (T i) (a' i) (a i)) (h' : ∀ i ∈ l, Nr k' (B i) (S i) (b' i) (b i))
    (hz : ‖z - (l.map fun i => a' i * b' i).sum‖ + (l.map fun i => ‖a' i‖ * ‖b' i‖).sum ≤
        (1 + uu) ^ (l.length + 1) * ((l.map fun i => ‖a' i‖ * ‖b' i‖).sum + 2 * l.length * eta)) :
    Nr (k + k' + (l.length + 1)) (l.map fun i => A i * B i).sum ((l.map fun i => T i * S i).sum + 2 * l.length * eta) z
      (l.map fun i => a i * b i).sum := by
  have hp := one_le_up k
  have hq := one_le_up k'
  have hr := one_le_up (l.length + 1)
  have he := eta_pos
  -- facts on the sums
  have key : ∀ l' : List ι, (∀ i ∈ l', i ∈ l) →
      ‖(l'.map fun i => a i * b i).sum‖ ≤ (l'.map fun i => A i * B i).sum ∧
      (l'.map fun i => A i * B i).sum ≤ (l'.map fun i => T i * S i).sum ∧
      ‖(l'.map fun i => a' i * b' i).sum - (l'.map fun i => a i * b i).sum‖ + (l'.map fun i => A i * B i).sum ≤
        (1 + uu) ^ k * (1 + uu) ^ k' * (l'.map fun i => T i * S i).sum ∧
      (l'.map fun i => ‖a' i‖ * ‖b' i‖).sum ≤ (1 + uu) ^ k * (1 + uu) ^ k' * (l'.map fun i => T i * S i).sum := by
    intro l'
    induction l' with
    | nil => intro _; simp
    | cons i l' ih =>
      intro hm
      obtain ⟨i1, i2, i3, i4⟩ := ih fun j hj => hm j (List.mem_cons_of_mem _ hj)
      have hi := h i (hm i List.mem_cons_self)
      have hi' := h' i (hm i List.mem_cons_self)
      obtain ⟨hA, hT⟩ := hi.nonneg
      obtain ⟨hB, hS⟩ := hi'.nonneg
      simp only [List.map_cons, List.sum_cons]
      set p := (1 + uu) ^ k
      set q := (1 + uu) ^ k'
      have m1 : ‖a' i‖ * ‖b' i‖ ≤ (p * T i) * (q * S i) :=
        mul_le_mul hi.norm_le hi'.norm_le (norm_nonneg _) (by positivity)
      have m2 : ‖a' i * b' i - a i * b i‖ ≤ (p * T i) * (q * S i) - A i * B i := by
        have : a' i * b' i - a i * b i = (a' i - a i) * b' i + a i * (b' i - b i) := by ring
        rw [this]
        refine (norm_add_le _ _).trans ?_
        rw [norm_mul, norm_mul]
        have s3 : ‖a' i - a i‖ * ‖b' i‖ ≤ (p * T i - A i) * (q * S i) :=
          mul_le_mul hi.err hi'.norm_le (norm_nonneg _) ((norm_nonneg _).trans hi.err)
        have s4 : ‖a i‖ * ‖b' i - b i‖ ≤ A i * (q * S i - B i) := mul_le_mul hi.1 hi'.err (norm_nonneg _) hA
        calc _ ≤ _ := add_le_add s3 s4
          _ = _ := by ring
      refine ⟨(norm_add_le _ _).trans (add_le_add ?_ i1), add_le_add ?_ i2, ?_, ?_⟩
      · rw [norm_mul]; exact mul_le_mul hi.1 hi'.1 (norm_nonneg _) hA
      · exact mul_le_mul hi.2.1 hi'.2.1 hB hT
      · rw [add_sub_add_comm]
        have := norm_add_le (a' i * b' i - a i * b i) ((l'.map fun i => a' i * b' i).sum - (l'.map fun i => a i * b i).sum)
        calc _ ≤ (p * T i) * (q * S i) - A i * B i + ‖(l'.map fun i => a' i * b' i).sum - (l'.map fun i => a i * b i).sum‖ +
              (A i * B i + (l'.map fun i => A i * B i).sum) := by linarith
          _ ≤ (p * T i) * (q * S i) + p * q * (l'.map fun i => T i * S i).sum := by linarith
          _ = _ := by ring
      · calc _ ≤ (p * T i) * (q * S i) + p * q * (l'.map fun i => T i * S i).sum := add_le_add m1 i4
          _ = _ := by ring
  obtain ⟨i1, i2, i3, i4⟩ := key l fun _ h => h
  refine ⟨i1, by have : 0 ≤ 2 * (l.length : ℝ) * eta := by positivity
                 linarith, ?_⟩
  rw [pow_add, pow_add]
  have tri : ‖z - (l.map fun i => a i * b i).sum‖ ≤ ‖z - (l.map fun i => a' i * b' i).sum‖ +
      ‖(l.map fun i => a' i * b' i).sum - (l.map fun i => a i * b i).sum‖ := by
    have : z - (l.map fun i => a i * b i).sum = (z - (l.map fun i => a' i * b' i).sum) +
      ((l.map fun i => a' i * b' i).sum - (l.map fun i => a i * b i).sum) := by ring
    rw [this]; exact norm_add_le _ _
  set p := (1 + uu) ^ k
  set q := (1 + uu) ^ k'
  set r := (1 + uu) ^ (l.length + 1)
  set W := (l.map fun i => ‖a' i‖ * ‖b' i‖).sum
  set V := (l.map fun i => T i * S i).sum
  set n : ℝ := 2 * (l.length : ℝ) * eta
  have hn : 0 ≤ n := by positivity
  have hpq : 1 ≤ p * q := one_le_mul_of_one_le_of_one_le hp hq
  have t1 : r * (W + n) - W ≤ r * (p * q * V + n) - p * q * V := by
    have : (r - 1) * W ≤ (r - 1) * (p * q * V) := mul_le_mul_of_nonneg_left i4 (by linarith)
    nlinarith
  have t2 : r * (p * q * V + n) ≤ r * (p * q * V + p * q * n) := by
    refine mul_le_mul_of_nonneg_left ?_ (by linarith)
    nlinarith
  calc _ ≤ r * (W + n) - W + (p * q * V) := by linarith
    _ ≤ r * (p * q * V + p * q * n) := by linarith
    _ = _ := by ring

end S2wav
