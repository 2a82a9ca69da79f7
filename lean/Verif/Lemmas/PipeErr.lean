import Verif.Props.Stability
import Verif.Lemmas.HarmTrip

/-! # Norms of coefficients, for the error of a whole transform -/

namespace S2wav
open Classical

/-- Minkowski's inequality -/
theorem mink {ι : Type} (S : Finset ι) (x f g : ι → ℝ) (hx : ∀ i ∈ S, 0 ≤ x i) (h : ∀ i ∈ S, x i ≤ f i + g i) :
    Real.sqrt (∑ i ∈ S, x i ^ 2) ≤ Real.sqrt (∑ i ∈ S, f i ^ 2) + Real.sqrt (∑ i ∈ S, g i ^ 2) := by
  set A := ∑ i ∈ S, f i ^ 2 with hA
  set B := ∑ i ∈ S, g i ^ 2 with hB
  have hA0 : 0 ≤ A := Finset.sum_nonneg fun _ _ => sq_nonneg _
  have hB0 : 0 ≤ B := Finset.sum_nonneg fun _ _ => sq_nonneg _
  rw [Real.sqrt_le_left (by positivity)]
  have h1 : ∑ i ∈ S, x i ^ 2 ≤ ∑ i ∈ S, (f i + g i) ^ 2 :=
    Finset.sum_le_sum fun i hi => pow_le_pow_left₀ (hx i hi) (h i hi) 2
  have h2 : ∑ i ∈ S, (f i + g i) ^ 2 = A + 2 * ∑ i ∈ S, f i * g i + B := by
    rw [hA, hB, Finset.mul_sum, ← Finset.sum_add_distrib, ← Finset.sum_add_distrib]
    exact Finset.sum_congr rfl fun i _ => by ring
  have h3 := Finset.sum_mul_sq_le_sq_mul_sq S f g
  have h4 : ∑ i ∈ S, f i * g i ≤ Real.sqrt A * Real.sqrt B := by
    rw [← Real.sqrt_mul hA0]
    exact (le_abs_self _).trans (Real.abs_le_sqrt h3)
  nlinarith [Real.sq_sqrt hA0, Real.sq_sqrt hB0]

/-- norm of harmonic coefficients below degree `L` -/
noncomputable def norm2 (L : ℤ) (a : ℤ → ℤ → ℂ) : ℝ := Real.sqrt (energy2 L a)

/-- norm of Wigner coefficients below degree `L` -/
noncomputable def norm3 (L : ℤ) (t : ℤ → ℤ → ℤ → ℂ) : ℝ := Real.sqrt (energy3 L t)

theorem norm2_nonneg (L : ℤ) (a : ℤ → ℤ → ℂ) : 0 ≤ norm2 L a := Real.sqrt_nonneg _
theorem norm3_nonneg (L : ℤ) (t : ℤ → ℤ → ℤ → ℂ) : 0 ≤ norm3 L t := Real.sqrt_nonneg _
theorem norm2_sq (L : ℤ) (a : ℤ → ℤ → ℂ) : norm2 L a ^ 2 = energy2 L a := Real.sq_sqrt (energy2_nonneg L a)
theorem norm3_sq (L : ℤ) (t : ℤ → ℤ → ℤ → ℂ) : norm3 L t ^ 2 = energy3 L t := Real.sq_sqrt (energy3_nonneg L t)

theorem energy3_eq (L : ℤ) (t : ℤ → ℤ → ℤ → ℂ) :
    energy3 L t = ∑ x ∈ (Finset.Ico 0 L ×ˢ Finset.Ioo (-L) L) ×ˢ Finset.Ioo (-L) L,
      (Real.sqrt ((2 * x.1.1 + 1) / (8 * Real.pi ^ 2)) * ‖t x.2 x.1.1 x.1.2‖) ^ 2 := by
  rw [Finset.sum_product, Finset.sum_product, energy3]
  refine Finset.sum_congr rfl fun l hl => Finset.sum_congr rfl fun m _ => Finset.sum_congr rfl fun n _ => ?_
  have : (0 : ℝ) ≤ l := by exact_mod_cast (Finset.mem_Ico.1 hl).1
  rw [mul_pow, Real.sq_sqrt (by positivity)]

variable {L : ℤ}

theorem card_Ioo_le (hL : 1 ≤ L) (hL' : L ≤ 2 ^ 52) : ((Finset.Ioo (-L) L).card : ℝ) ≤ 2 ^ 53 := by
  rw [Int.card_Ioo]
  have : (((L - -L - 1).toNat : ℕ) : ℤ) ≤ 2 ^ 53 := by omega
  exact_mod_cast this

theorem card_Ico_le (hL : 1 ≤ L) (hL' : L ≤ 2 ^ 52) : ((Finset.Ico 0 L).card : ℝ) ≤ 2 ^ 52 := by
  rw [Int.card_Ico]
  have : (((L - 0).toNat : ℕ) : ℤ) ≤ 2 ^ 52 := by omega
  exact_mod_cast this

/-- an entrywise bound gives a bound of norms -/
theorem norm2_entry (hL : 1 ≤ L) (hL' : L ≤ 2 ^ 52) {a b : ℤ → ℤ → ℂ} {ε q : ℝ} (hε : 0 ≤ ε) (hq : 0 ≤ q)
    (h : ∀ l m, 0 ≤ l → l < L → -L < m → m < L → ‖a l m‖ ≤ ε * ‖b l m‖ + q) : norm2 L a ≤ ε * norm2 L b + q * 2 ^ 54 := by
  unfold norm2
  rw [energy2_eq, energy2_eq]
  set S := Finset.Ico 0 L ×ˢ Finset.Ioo (-L) L with hS
  refine (mink S (fun x => ‖a x.1 x.2‖) (fun x => ε * ‖b x.1 x.2‖) (fun _ => q) (fun _ _ => norm_nonneg _) (fun x hx => ?_)).trans (add_le_add ?_ ?_)
  · rw [hS, Finset.mem_product, Finset.mem_Ico, Finset.mem_Ioo] at hx
    exact h _ _ hx.1.1 hx.1.2 hx.2.1 hx.2.2
  · simp only [mul_pow, ← Finset.mul_sum]
    rw [Real.sqrt_mul (sq_nonneg _), Real.sqrt_sq hε]
  · rw [Finset.sum_const, nsmul_eq_mul, Real.sqrt_le_left (by positivity), hS, Finset.card_product, Nat.cast_mul]
    have : ((Finset.Ico 0 L).card : ℝ) * (Finset.Ioo (-L) L).card ≤ 2 ^ 52 * 2 ^ 53 :=
      mul_le_mul (card_Ico_le hL hL') (card_Ioo_le hL hL') (by positivity) (by positivity)
    have h2 : ((Finset.Ico 0 L).card : ℝ) * (Finset.Ioo (-L) L).card ≤ (2 ^ 54) ^ 2 := this.trans (by norm_num)
    nlinarith [sq_nonneg q]

theorem norm3_entry (hL : 1 ≤ L) (hL' : L ≤ 2 ^ 52) {a b : ℤ → ℤ → ℤ → ℂ} {ε q : ℝ} (hε : 0 ≤ ε) (hq : 0 ≤ q)
    (h : ∀ n l m, ‖a n l m‖ ≤ ε * ‖b n l m‖ + q) : norm3 L a ≤ ε * norm3 L b + q * 2 ^ 106 := by
  unfold norm3
  rw [energy3_eq, energy3_eq]
  set S := (Finset.Ico 0 L ×ˢ Finset.Ioo (-L) L) ×ˢ Finset.Ioo (-L) L with hS
  set w : (ℤ × ℤ) × ℤ → ℝ := fun x => Real.sqrt ((2 * x.1.1 + 1) / (8 * Real.pi ^ 2)) with hw
  have hw0 : ∀ x, 0 ≤ w x := fun _ => Real.sqrt_nonneg _
  refine (mink S (fun x => w x * ‖a x.2 x.1.1 x.1.2‖) (fun x => ε * (w x * ‖b x.2 x.1.1 x.1.2‖)) (fun x => w x * q)
    (fun x _ => mul_nonneg (hw0 x) (norm_nonneg _)) (fun x hx => ?_)).trans (add_le_add ?_ ?_)
  · have := mul_le_mul_of_nonneg_left (h x.2 x.1.1 x.1.2) (hw0 x)
    refine this.trans (le_of_eq ?_)
    ring
  · have : ∀ x, (ε * (w x * ‖b x.2 x.1.1 x.1.2‖)) ^ 2 = ε ^ 2 * (w x * ‖b x.2 x.1.1 x.1.2‖) ^ 2 := fun x => mul_pow _ _ _
    simp only [this, ← Finset.mul_sum]
    rw [Real.sqrt_mul (sq_nonneg _), Real.sqrt_sq hε]
  · rw [Real.sqrt_le_left (by positivity)]
    have hle : ∀ x ∈ S, (w x * q) ^ 2 ≤ 2 ^ 53 * q ^ 2 := by
      intro x hx
      rw [hS, Finset.mem_product, Finset.mem_product, Finset.mem_Ico] at hx
      have h0 : (0 : ℝ) ≤ x.1.1 := by exact_mod_cast hx.1.1.1
      have h1 : (x.1.1 : ℝ) ≤ 2 ^ 52 := by exact_mod_cast hx.1.1.2.le.trans hL'
      rw [mul_pow, hw, Real.sq_sqrt (by positivity)]
      refine mul_le_mul_of_nonneg_right ?_ (sq_nonneg _)
      have hpi := Real.pi_gt_three
      rw [div_le_iff₀ (by positivity)]
      nlinarith
    refine (Finset.sum_le_sum hle).trans ?_
    rw [Finset.sum_const, nsmul_eq_mul, hS, Finset.card_product, Finset.card_product, Nat.cast_mul, Nat.cast_mul]
    have h1 : ((Finset.Ico 0 L).card : ℝ) * (Finset.Ioo (-L) L).card ≤ 2 ^ 52 * 2 ^ 53 :=
      mul_le_mul (card_Ico_le hL hL') (card_Ioo_le hL hL') (by positivity) (by positivity)
    have h2 : ((Finset.Ico 0 L).card : ℝ) * (Finset.Ioo (-L) L).card * (Finset.Ioo (-L) L).card ≤ 2 ^ 52 * 2 ^ 53 * 2 ^ 53 :=
      mul_le_mul h1 (card_Ioo_le hL hL') (by positivity) (by positivity)
    have h3 := mul_le_mul_of_nonneg_right h2 (mul_nonneg (pow_nonneg zero_le_two 53) (sq_nonneg q) : (0 : ℝ) ≤ 2 ^ 53 * q ^ 2)
    refine h3.trans ?_
    have e1 : (2 : ℝ) ^ 52 * 2 ^ 53 * 2 ^ 53 * (2 ^ 53 * q ^ 2) = 2 ^ 211 * q ^ 2 := by rw [← pow_add, ← pow_add, ← mul_assoc, ← pow_add]
    have e2 : (q * 2 ^ 106) ^ 2 = 2 ^ 212 * q ^ 2 := by rw [mul_pow, ← pow_mul, mul_comm]
    rw [e1, e2]
    exact mul_le_mul_of_nonneg_right (pow_le_pow_right₀ (by norm_num) (by norm_num)) (sq_nonneg q)

theorem norm2_add (L : ℤ) {a b c : ℤ → ℤ → ℂ} (h : ∀ l m, ‖a l m‖ ≤ ‖b l m‖ + ‖c l m‖) : norm2 L a ≤ norm2 L b + norm2 L c := by
  unfold norm2
  rw [energy2_eq, energy2_eq, energy2_eq]
  exact mink (Finset.Ico 0 L ×ˢ Finset.Ioo (-L) L) (fun x => ‖a x.1 x.2‖) (fun x => ‖b x.1 x.2‖) (fun x => ‖c x.1 x.2‖)
    (fun _ _ => norm_nonneg _) fun x _ => h _ _

theorem norm3_add (L : ℤ) {a b c : ℤ → ℤ → ℤ → ℂ} (h : ∀ n l m, ‖a n l m‖ ≤ ‖b n l m‖ + ‖c n l m‖) : norm3 L a ≤ norm3 L b + norm3 L c := by
  unfold norm3
  rw [energy3_eq, energy3_eq, energy3_eq]
  set w : (ℤ × ℤ) × ℤ → ℝ := fun x => Real.sqrt ((2 * x.1.1 + 1) / (8 * Real.pi ^ 2)) with hw
  refine mink ((Finset.Ico 0 L ×ˢ Finset.Ioo (-L) L) ×ˢ Finset.Ioo (-L) L) (fun x => w x * ‖a x.2 x.1.1 x.1.2‖)
    (fun x => w x * ‖b x.2 x.1.1 x.1.2‖) (fun x => w x * ‖c x.2 x.1.1 x.1.2‖)
    (fun x _ => mul_nonneg (Real.sqrt_nonneg _) (norm_nonneg _)) fun x _ => ?_
  rw [← mul_add]
  exact mul_le_mul_of_nonneg_left (h _ _ _) (Real.sqrt_nonneg _)

theorem norm2_congr (L : ℤ) {a b : ℤ → ℤ → ℂ} (h : ∀ l m, ‖a l m‖ = ‖b l m‖) : norm2 L a = norm2 L b := by
  unfold norm2 energy2
  simp only [h]

theorem norm3_congr (L : ℤ) {a b : ℤ → ℤ → ℤ → ℂ} (h : ∀ n l m, ‖a n l m‖ = ‖b n l m‖) : norm3 L a = norm3 L b := by
  unfold norm3 energy3
  simp only [h]

/-- the norm of a family of Wigner coefficients and scaling coefficients together -/
noncomputable def normT (L J_min J : ℤ) (d : ℤ → ℤ → ℤ → ℤ → ℂ) (e : ℤ → ℤ → ℂ) : ℝ :=
  Real.sqrt (∑ j ∈ Finset.Icc J_min J, energy3 L (d j) + energy2 L e)

theorem normT_nonneg (L J_min J : ℤ) (d : ℤ → ℤ → ℤ → ℤ → ℂ) (e : ℤ → ℤ → ℂ) : 0 ≤ normT L J_min J d e := Real.sqrt_nonneg _

theorem normT_sq (L J_min J : ℤ) (d : ℤ → ℤ → ℤ → ℤ → ℂ) (e : ℤ → ℤ → ℂ) :
    normT L J_min J d e ^ 2 = ∑ j ∈ Finset.Icc J_min J, energy3 L (d j) + energy2 L e :=
  Real.sq_sqrt (add_nonneg (Finset.sum_nonneg fun _ _ => energy3_nonneg _ _) (energy2_nonneg _ _))

variable {J_min J : ℤ}

/-- bounds scale by scale give a bound of the whole -/
theorem normT_le (h1 : J_min ≤ J + 1) {x f : ℤ → ℤ → ℤ → ℤ → ℂ} {y g : ℤ → ℤ → ℂ} {a q : ℝ} (ha : 0 ≤ a) (hq : 0 ≤ q)
    (hx : ∀ j, J_min ≤ j → j ≤ J → norm3 L (x j) ≤ a * norm3 L (f j) + q) (hy : norm2 L y ≤ a * norm2 L g + q) :
    normT L J_min J x y ≤ a * normT L J_min J f g + (J + 2 - J_min) * q := by
  set S := Finset.insertNone (Finset.Icc J_min J) with hS
  have e : ∀ (d : ℤ → ℤ → ℤ → ℤ → ℂ) (u : ℤ → ℤ → ℂ), normT L J_min J d u =
      Real.sqrt (∑ o ∈ S, (o.elim (norm2 L u) fun j => norm3 L (d j)) ^ 2) := by
    intro d u
    rw [normT, hS, Finset.sum_insertNone]
    simp only [Option.elim_none, Option.elim_some, norm2_sq, norm3_sq]
    rw [add_comm]
  rw [e, e]
  refine (mink S _ (fun o => a * (o.elim (norm2 L g) fun j => norm3 L (f j))) (fun _ => q) ?_ ?_).trans (add_le_add ?_ ?_)
  · rintro (_ | j) _
    · exact norm2_nonneg _ _
    · exact norm3_nonneg _ _
  · rintro (_ | j) hj
    · exact hy
    · rw [hS, Finset.some_mem_insertNone, Finset.mem_Icc] at hj
      exact hx j hj.1 hj.2
  · simp only [mul_pow, ← Finset.mul_sum]
    rw [Real.sqrt_mul (sq_nonneg _), Real.sqrt_sq ha]
  · have hc : ((Finset.card S : ℕ) : ℝ) = J + 2 - J_min := by
      rw [hS, Finset.card_insertNone, Int.card_Icc]
      have : (((J + 1 - J_min).toNat + 1 : ℕ) : ℤ) = J + 2 - J_min := by omega
      exact_mod_cast congrArg (Int.cast : ℤ → ℝ) this
    have h2 : (1 : ℝ) ≤ J + 2 - J_min := by
      have : (1 : ℤ) ≤ J + 2 - J_min := by omega
      exact_mod_cast this
    rw [Finset.sum_const, nsmul_eq_mul, hc, Real.sqrt_le_left (by positivity)]
    nlinarith [sq_nonneg q]

/-- the norm of the synthesis -/
theorem norm2_syn (psi : Arr3 ℂ) (phi : Arr1 ℝ) {B : ℝ} (hB0 : 0 ≤ B) (hB : ∀ l, 0 ≤ l → l < L → frameSum J_min J L psi phi l ≤ B)
    (d : ℤ → ℤ → ℤ → ℤ → ℂ) (e : ℤ → ℤ → ℂ) {g : ℤ → ℤ → ℂ}
    (hg : ∀ l m, 0 ≤ l → l < L → -L < m → m < L → g l m = ∑ j ∈ Finset.Icc J_min J, ∑ n ∈ Finset.Ioo (-L) L, psi.v j l (L - 1 + n) * d j n l m +
        ((Real.sqrt (4 * Real.pi / (2 * l + 1)) * phi.v l : ℝ) : ℂ) * e l m) :
    norm2 L g ≤ Real.sqrt B * normT L J_min J d e := by
  rw [norm2, normT, ← Real.sqrt_mul hB0]
  refine Real.sqrt_le_sqrt ?_
  have hsw : ∑ j ∈ Finset.Icc J_min J, energy3 L (d j) + energy2 L e =
      ∑ l ∈ Finset.Ico 0 L, ∑ m ∈ Finset.Ioo (-L) L, (∑ j ∈ Finset.Icc J_min J, ∑ n ∈ Finset.Ioo (-L) L,
        (2 * l + 1) / (8 * Real.pi ^ 2) * ‖d j n l m‖ ^ 2 + ‖e l m‖ ^ 2) := by
    unfold energy3 energy2
    simp only [Finset.sum_add_distrib]
    congr 1
    rw [Finset.sum_comm]
    refine Finset.sum_congr rfl fun l _ => ?_
    rw [Finset.sum_comm]
  rw [hsw, Finset.mul_sum, energy2]
  refine Finset.sum_le_sum fun l hl => ?_
  rw [Finset.mul_sum]
  refine Finset.sum_le_sum fun m hm => ?_
  rw [Finset.mem_Ico] at hl
  rw [Finset.mem_Ioo] at hm
  rw [hg l m hl.1 hl.2 hm.1 hm.2]
  refine (syn_le hl.1 psi phi _ _).trans (mul_le_mul_of_nonneg_right (hB l hl.1 hl.2) ?_)
  have hl' : (0 : ℝ) ≤ l := by exact_mod_cast hl.1
  positivity

/-- the norm of the analysis -/
theorem normT_ana (psi : Arr3 ℂ) (phi : Arr1 ℝ) {B : ℝ} (hB0 : 0 ≤ B) (hB : ∀ l, 0 ≤ l → l < L → frameSum J_min J L psi phi l ≤ B)
    {d : ℤ → ℤ → ℤ → ℤ → ℂ} {e f : ℤ → ℤ → ℂ}
    (hd : ∀ j n l m, d j n l m = ((8 * Real.pi ^ 2 / (2 * l + 1) : ℝ) : ℂ) * (f l m * (starRingEnd ℂ) (psi.v j l (L - 1 + n))))
    (he : ∀ l m, e l m = ((Real.sqrt (4 * Real.pi / (2 * l + 1)) * phi.v l : ℝ) : ℂ) * f l m) :
    normT L J_min J d e ≤ Real.sqrt B * norm2 L f := by
  rw [norm2, normT, ← Real.sqrt_mul hB0]
  refine Real.sqrt_le_sqrt ?_
  have hsw : ∑ j ∈ Finset.Icc J_min J, energy3 L (d j) + energy2 L e =
      ∑ l ∈ Finset.Ico 0 L, ∑ m ∈ Finset.Ioo (-L) L, frameSum J_min J L psi phi l * ‖f l m‖ ^ 2 := by
    have : ∀ l ∈ Finset.Ico 0 L, ∀ m ∈ Finset.Ioo (-L) L, frameSum J_min J L psi phi l * ‖f l m‖ ^ 2 =
        ∑ j ∈ Finset.Icc J_min J, ∑ n ∈ Finset.Ioo (-L) L, (2 * l + 1) / (8 * Real.pi ^ 2) * ‖d j n l m‖ ^ 2 + ‖e l m‖ ^ 2 := by
      intro l hl m _
      rw [Finset.mem_Ico] at hl
      rw [← ana_energy hl.1 psi phi (f l m), he]
      congr 1
      exact Finset.sum_congr rfl fun j _ => Finset.sum_congr rfl fun n _ => by rw [hd]
    rw [Finset.sum_congr rfl fun l hl => Finset.sum_congr rfl fun m hm => this l hl m hm]
    unfold energy3 energy2
    simp only [Finset.sum_add_distrib]
    congr 1
    rw [Finset.sum_comm]
    refine Finset.sum_congr rfl fun l _ => ?_
    rw [Finset.sum_comm]
  rw [hsw, energy2, Finset.mul_sum]
  refine Finset.sum_le_sum fun l hl => ?_
  rw [Finset.mul_sum]
  rw [Finset.mem_Ico] at hl
  exact Finset.sum_le_sum fun m _ => mul_le_mul_of_nonneg_right (hB l hl.1 hl.2) (sq_nonneg _)

/-- one entry is not larger than the norm -/
theorem norm3_le {t : ℤ → ℤ → ℤ → ℂ} {n l m : ℤ} (hl0 : 0 ≤ l) (hl1 : l < L) (hm0 : -L < m) (hm1 : m < L) (hn0 : -L < n) (hn1 : n < L) :
    ‖t n l m‖ ≤ 16 * norm3 L t := by
  have h : (2 * (l : ℝ) + 1) / (8 * Real.pi ^ 2) * ‖t n l m‖ ^ 2 ≤ energy3 L t := by
    unfold energy3
    have nn : ∀ l ∈ Finset.Ico 0 L, ∀ m n : ℤ, 0 ≤ (2 * (l : ℝ) + 1) / (8 * Real.pi ^ 2) * ‖t n l m‖ ^ 2 := by
      intro l hl m n
      have : (0 : ℝ) ≤ l := by exact_mod_cast (Finset.mem_Ico.1 hl).1
      positivity
    refine le_trans ?_ (Finset.single_le_sum (f := fun l : ℤ => ∑ m ∈ Finset.Ioo (-L) L, ∑ n ∈ Finset.Ioo (-L) L, (2 * (l : ℝ) + 1) / (8 * Real.pi ^ 2) * ‖t n l m‖ ^ 2)
      (fun l hl => Finset.sum_nonneg fun m _ => Finset.sum_nonneg fun n _ => nn l hl m n) (Finset.mem_Ico.2 ⟨hl0, hl1⟩))
    refine le_trans ?_ (Finset.single_le_sum (f := fun m : ℤ => ∑ n ∈ Finset.Ioo (-L) L, (2 * (l : ℝ) + 1) / (8 * Real.pi ^ 2) * ‖t n l m‖ ^ 2)
      (fun m _ => Finset.sum_nonneg fun n _ => nn l (Finset.mem_Ico.2 ⟨hl0, hl1⟩) m n) (Finset.mem_Ioo.2 ⟨hm0, hm1⟩))
    exact Finset.single_le_sum (f := fun n : ℤ => (2 * (l : ℝ) + 1) / (8 * Real.pi ^ 2) * ‖t n l m‖ ^ 2)
      (fun n _ => nn l (Finset.mem_Ico.2 ⟨hl0, hl1⟩) m n) (Finset.mem_Ioo.2 ⟨hn0, hn1⟩)
  rw [← norm3_sq] at h
  have hl' : (0 : ℝ) ≤ l := by exact_mod_cast hl0
  have hpi : Real.pi < 4 := by linarith [Real.pi_lt_d2]
  have hpi0 := Real.pi_pos
  have h0 := norm3_nonneg L t
  refine abs_le_of_sq_le_sq' ?_ (by positivity) |>.2
  have h1 : (1 : ℝ) / 128 ≤ (2 * l + 1) / (8 * Real.pi ^ 2) := by
    rw [div_le_div_iff₀ (by norm_num) (by positivity)]
    nlinarith
  have h2 := mul_le_mul_of_nonneg_right h1 (sq_nonneg ‖t n l m‖)
  nlinarith

theorem norm2_le {a : ℤ → ℤ → ℂ} {l m : ℤ} (hl0 : 0 ≤ l) (hl1 : l < L) (hm0 : -L < m) (hm1 : m < L) : ‖a l m‖ ≤ norm2 L a := by
  refine abs_le_of_sq_le_sq' ?_ (norm2_nonneg _ _) |>.2
  rw [norm2_sq]
  unfold energy2
  refine le_trans ?_ (Finset.single_le_sum (f := fun l : ℤ => ∑ m ∈ Finset.Ioo (-L) L, ‖a l m‖ ^ 2)
      (fun l _ => Finset.sum_nonneg fun m _ => sq_nonneg _) (Finset.mem_Ico.2 ⟨hl0, hl1⟩))
  exact Finset.single_le_sum (f := fun m : ℤ => ‖a l m‖ ^ 2) (fun m _ => sq_nonneg _) (Finset.mem_Ioo.2 ⟨hm0, hm1⟩)

theorem norm3_le_normT {d : ℤ → ℤ → ℤ → ℤ → ℂ} {e : ℤ → ℤ → ℂ} {j : ℤ} (h0 : J_min ≤ j) (h1 : j ≤ J) : norm3 L (d j) ≤ normT L J_min J d e := by
  refine Real.sqrt_le_sqrt ?_
  have := Finset.single_le_sum (f := fun j => energy3 L (d j)) (fun j _ => energy3_nonneg _ _) (Finset.mem_Icc.2 ⟨h0, h1⟩)
  linarith [energy2_nonneg L e]

theorem norm2_le_normT {d : ℤ → ℤ → ℤ → ℤ → ℂ} {e : ℤ → ℤ → ℂ} : norm2 L e ≤ normT L J_min J d e := by
  refine Real.sqrt_le_sqrt ?_
  have := Finset.sum_nonneg (s := Finset.Icc J_min J) (f := fun j => energy3 L (d j)) (fun j _ => energy3_nonneg _ _)
  linarith

end S2wav
