import Verif.Props.Custom

/-! # Inexact harmonic transforms

s2fft computes with rounding errors, and on HEALPix pixels its transforms are only approximately inverse to each other.
C69 bounds what such errors do to a wavelet round trip. -/

namespace S2wav
open Classical

/-- energy of harmonic coefficients below degree `L` -/
noncomputable def energy2 (L : ℤ) (a : ℤ → ℤ → ℂ) : ℝ := ∑ l ∈ Finset.Ico 0 L, ∑ m ∈ Finset.Ioo (-L) L, ‖a l m‖ ^ 2

/-- energy of Wigner coefficients below degree `L` -/
noncomputable def energy3 (L : ℤ) (t : ℤ → ℤ → ℤ → ℂ) : ℝ := ∑ l ∈ Finset.Ico 0 L, ∑ m ∈ Finset.Ioo (-L) L,
  ∑ n ∈ Finset.Ioo (-L) L, (2 * l + 1) / (8 * Real.pi ^ 2) * ‖t n l m‖ ^ 2

/-- `base.py` needs images of the documented shapes, the looped synthesis also the real inverse transform to read only
`m ≥ 0` -/
def Backend.Checks : Backend → Cfg → Prop
  | .base E _, c => ShapesMatch E c
  | .looped E _, c => ShapesMatch E c ∧ (c.reality = true → (baseEngine E c).NonnegOnly)
  | _, _ => True

/-- inverse followed by forward transform changes the coefficients by at most the fraction `δ` of their norm, for the
wavelet maps and the scaling map -/
structure Backend.Near (b : Backend) (jm : JMax) (c : Cfg) (J : ℤ) (δ : ℝ) : Prop where
  valid : c.Valid jm J
  ready : b.Ready jm c
  std : (b.engine c).Std c.reality
  checks : b.Checks c
  wav : ∀ j t, c.J_min ≤ j → j ≤ J → BL3 (c.Lj b.mr j) (c.Nj b.mr j) (c.L0 b.mr j) t → (c.reality = true → Herm3 t) →
    ∃ p t', (b.engine c).wigI t (c.Lj b.mr j) (c.Nj b.mr j) (c.L0 b.mr j) = .ok p ∧
      (b.engine c).wigF p (c.Lj b.mr j) (c.Nj b.mr j) (c.L0 b.mr j) = .ok t' ∧
      energy3 c.L (fun n l m => co3 t' n l m - co3 t n l m) ≤ δ ^ 2 * energy3 c.L (co3 t)
  scal : ∀ a, BL2 (c.Ls b.mr) c.spin a → (c.reality = true → Herm2 a) →
    ∃ p a', b.scalI c a = .ok p ∧ (b.engine c).sphF (b.fscal c p) (c.Ls b.mr) = .ok a' ∧
      energy2 c.L (fun l m => co2 a' l m - co2 a l m) ≤ δ ^ 2 * energy2 c.L (co2 a)

theorem energy2_nonneg (L : ℤ) (a : ℤ → ℤ → ℂ) : 0 ≤ energy2 L a :=
  Finset.sum_nonneg fun _ _ => Finset.sum_nonneg fun _ _ => sq_nonneg _

theorem energy3_nonneg (L : ℤ) (t : ℤ → ℤ → ℤ → ℂ) : 0 ≤ energy3 L t := by
  refine Finset.sum_nonneg fun l hl => Finset.sum_nonneg fun _ _ => Finset.sum_nonneg fun _ _ => ?_
  have : (0 : ℝ) ≤ l := by exact_mod_cast (Finset.mem_Ico.1 hl).1
  positivity

theorem energy2_eq (L : ℤ) (a : ℤ → ℤ → ℂ) :
    energy2 L a = ∑ x ∈ Finset.Ico 0 L ×ˢ Finset.Ioo (-L) L, ‖a x.1 x.2‖ ^ 2 :=
  (Finset.sum_product _ _ (fun x : ℤ × ℤ => ‖a x.1 x.2‖ ^ 2)).symm

/-- triangle inequality for the norm `sqrt (energy2 L a)` -/
theorem energy2_triangle (L : ℤ) (a b : ℤ → ℤ → ℂ) {A B : ℝ} (hA : 0 ≤ A) (hB : 0 ≤ B) (ha : energy2 L a ≤ A ^ 2)
    (hb : energy2 L b ≤ B ^ 2) : energy2 L (fun l m => a l m + b l m) ≤ (A + B) ^ 2 := by
  rw [energy2_eq] at ha hb ⊢
  set S := Finset.Ico 0 L ×ˢ Finset.Ioo (-L) L
  have h1 : ∑ x ∈ S, ‖a x.1 x.2 + b x.1 x.2‖ ^ 2 ≤ ∑ x ∈ S, (‖a x.1 x.2‖ + ‖b x.1 x.2‖) ^ 2 :=
    Finset.sum_le_sum fun x _ => pow_le_pow_left₀ (norm_nonneg _) (norm_add_le _ _) 2
  have h2 : ∑ x ∈ S, (‖a x.1 x.2‖ + ‖b x.1 x.2‖) ^ 2 = ∑ x ∈ S, ‖a x.1 x.2‖ ^ 2 +
      2 * ∑ x ∈ S, ‖a x.1 x.2‖ * ‖b x.1 x.2‖ + ∑ x ∈ S, ‖b x.1 x.2‖ ^ 2 := by
    rw [Finset.mul_sum, ← Finset.sum_add_distrib, ← Finset.sum_add_distrib]
    exact Finset.sum_congr rfl fun x _ => by ring
  have h3 := Finset.sum_mul_sq_le_sq_mul_sq S (fun x => ‖a x.1 x.2‖) (fun x => ‖b x.1 x.2‖)
  have h4 : (∑ x ∈ S, ‖a x.1 x.2‖ * ‖b x.1 x.2‖) ^ 2 ≤ (A * B) ^ 2 := by
    rw [mul_pow]
    exact h3.trans (mul_le_mul ha hb (Finset.sum_nonneg fun _ _ => sq_nonneg _) (sq_nonneg _))
  have h5 := abs_le_of_sq_le_sq h4 (mul_nonneg hA hB)
  nlinarith [le_abs_self (∑ x ∈ S, ‖a x.1 x.2‖ * ‖b x.1 x.2‖)]

section
variable {jm : JMax} {c : Cfg} {J : ℤ} {psi : Arr3 ℂ} {phi : Arr1 ℝ} {b : Backend} {f : Px} {flm : Arr2 ℂ} {δ : ℝ}

/-- Cauchy-Schwarz for one synthesised coefficient -/
theorem syn_le {L J_min J l : ℤ} (hl : 0 ≤ l) (psi : Arr3 ℂ) (phi : Arr1 ℝ) (d : ℤ → ℤ → ℂ) (e : ℂ) :
    ‖∑ j ∈ Finset.Icc J_min J, ∑ n ∈ Finset.Ioo (-L) L, psi.v j l (L - 1 + n) * d j n +
      ((Real.sqrt (4 * Real.pi / (2 * l + 1)) * phi.v l : ℝ) : ℂ) * e‖ ^ 2 ≤ frameSum J_min J L psi phi l *
    (∑ j ∈ Finset.Icc J_min J, ∑ n ∈ Finset.Ioo (-L) L, (2 * l + 1) / (8 * Real.pi ^ 2) * ‖d j n‖ ^ 2 + ‖e‖ ^ 2) := by
  have hl' : (0 : ℝ) ≤ l := by exact_mod_cast hl
  have hpi := Real.pi_pos
  set w : ℝ := 8 * Real.pi ^ 2 / (2 * l + 1) with hw
  have hw0 : 0 < w := by positivity
  have hwi : (2 * (l : ℝ) + 1) / (8 * Real.pi ^ 2) = w⁻¹ := by rw [hw, inv_div]
  set S := Finset.Icc J_min J ×ˢ Finset.Ioo (-L) L
  set A := ∑ x ∈ S, ‖psi.v x.1 l (L - 1 + x.2)‖ ^ 2
  set D := ∑ x ∈ S, ‖d x.1 x.2‖ ^ 2
  have hA0 : 0 ≤ A := Finset.sum_nonneg fun _ _ => sq_nonneg _
  have hD0 : 0 ≤ D := Finset.sum_nonneg fun _ _ => sq_nonneg _
  set r := Real.sqrt (4 * Real.pi / (2 * l + 1)) * phi.v l
  have hr : r ^ 2 = 4 * Real.pi / (2 * l + 1) * phi.v l ^ 2 := by
    rw [mul_pow, Real.sq_sqrt (by positivity)]
  have hfs : frameSum J_min J L psi phi l = r ^ 2 + w * A := by
    rw [hr, frameSum]
    congr 2
    simp only [sum_cols_Ioo (L := L)]
    exact (Finset.sum_product _ _ (fun x : ℤ × ℤ => ‖psi.v x.1 l (L - 1 + x.2)‖ ^ 2)).symm
  have hsd : ∑ j ∈ Finset.Icc J_min J, ∑ n ∈ Finset.Ioo (-L) L, (2 * (l : ℝ) + 1) / (8 * Real.pi ^ 2) * ‖d j n‖ ^ 2 = w⁻¹ * D := by
    rw [hwi]
    simp only [← Finset.mul_sum]
    exact congrArg _ (Finset.sum_product _ _ (fun x : ℤ × ℤ => ‖d x.1 x.2‖ ^ 2)).symm
  have hs : ∑ j ∈ Finset.Icc J_min J, ∑ n ∈ Finset.Ioo (-L) L, psi.v j l (L - 1 + n) * d j n =
      ∑ x ∈ S, psi.v x.1 l (L - 1 + x.2) * d x.1 x.2 := (Finset.sum_product _ _ (fun x : ℤ × ℤ => psi.v x.1 l (L - 1 + x.2) * d x.1 x.2)).symm
  rw [hfs, hsd, hs]
  have h1 : ‖∑ x ∈ S, psi.v x.1 l (L - 1 + x.2) * d x.1 x.2‖ ≤ ∑ x ∈ S, ‖psi.v x.1 l (L - 1 + x.2)‖ * ‖d x.1 x.2‖ :=
    (norm_sum_le _ _).trans_eq (Finset.sum_congr rfl fun x _ => norm_mul _ _)
  have h2 := Finset.sum_mul_sq_le_sq_mul_sq S (fun x => ‖psi.v x.1 l (L - 1 + x.2)‖) (fun x => ‖d x.1 x.2‖)
  set X := ‖∑ x ∈ S, psi.v x.1 l (L - 1 + x.2) * d x.1 x.2‖
  have hX : X ^ 2 ≤ A * D := (pow_le_pow_left₀ (norm_nonneg _) h1 2).trans h2
  have h3 : ‖∑ x ∈ S, psi.v x.1 l (L - 1 + x.2) * d x.1 x.2 + (r : ℂ) * e‖ ≤ X + |r| * ‖e‖ := by
    refine (norm_add_le _ _).trans ?_
    rw [norm_mul, Complex.norm_real, Real.norm_eq_abs]
  refine (pow_le_pow_left₀ (norm_nonneg _) h3 2).trans ?_
  have hX0 : 0 ≤ X := norm_nonneg _
  have hcross : 2 * (X * (|r| * ‖e‖)) ≤ w⁻¹ * D * r ^ 2 + w * A * ‖e‖ ^ 2 := by
    have hq : (X * (|r| * ‖e‖)) ^ 2 ≤ (w⁻¹ * D * r ^ 2) * (w * A * ‖e‖ ^ 2) := by
      have : (w⁻¹ * D * r ^ 2) * (w * A * ‖e‖ ^ 2) = (A * D) * (r ^ 2 * ‖e‖ ^ 2) := by field_simp
      rw [this, mul_pow, mul_pow, sq_abs]
      exact mul_le_mul_of_nonneg_right hX (by positivity)
    have hu : 0 ≤ w⁻¹ * D * r ^ 2 := by positivity
    have hv : 0 ≤ w * A * ‖e‖ ^ 2 := by positivity
    have hle : (2 * (X * (|r| * ‖e‖))) ^ 2 ≤ (w⁻¹ * D * r ^ 2 + w * A * ‖e‖ ^ 2) ^ 2 := by
      nlinarith [sq_nonneg (w⁻¹ * D * r ^ 2 - w * A * ‖e‖ ^ 2)]
    exact le_of_sq_le_sq hle (by positivity)
  have e1 : (r ^ 2 + w * A) * (w⁻¹ * D + ‖e‖ ^ 2) = w⁻¹ * D * r ^ 2 + r ^ 2 * ‖e‖ ^ 2 + A * D + w * A * ‖e‖ ^ 2 := by
    field_simp
    ring
  rw [e1]
  nlinarith [sq_abs r]

/-- energy of the analysis coefficients at one degree and order -/
theorem ana_energy {L J_min J l : ℤ} (hl : 0 ≤ l) (psi : Arr3 ℂ) (phi : Arr1 ℝ) (x : ℂ) :
    ∑ j ∈ Finset.Icc J_min J, ∑ n ∈ Finset.Ioo (-L) L, (2 * l + 1) / (8 * Real.pi ^ 2) *
      ‖((8 * Real.pi ^ 2 / (2 * l + 1) : ℝ) : ℂ) * (x * (starRingEnd ℂ) (psi.v j l (L - 1 + n)))‖ ^ 2 +
      ‖((Real.sqrt (4 * Real.pi / (2 * l + 1)) * phi.v l : ℝ) : ℂ) * x‖ ^ 2 = frameSum J_min J L psi phi l * ‖x‖ ^ 2 := by
  have hl' : (0 : ℝ) ≤ l := by exact_mod_cast hl
  have hpi := Real.pi_pos
  have e : ∀ j n, (2 * (l : ℝ) + 1) / (8 * Real.pi ^ 2) *
      ‖((8 * Real.pi ^ 2 / (2 * l + 1) : ℝ) : ℂ) * (x * (starRingEnd ℂ) (psi.v j l (L - 1 + n)))‖ ^ 2 =
      8 * Real.pi ^ 2 / (2 * l + 1) * ‖x‖ ^ 2 * ‖psi.v j l (L - 1 + n)‖ ^ 2 := by
    intro j n
    rw [norm_mul, norm_mul, Complex.norm_real, Real.norm_eq_abs, Complex.norm_conj, mul_pow, mul_pow, sq_abs]
    field_simp
  simp only [e, ← Finset.mul_sum]
  rw [norm_mul, Complex.norm_real, Real.norm_eq_abs, mul_pow, sq_abs, mul_pow, Real.sq_sqrt (by positivity), frameSum]
  simp only [sum_cols_Ioo (L := L)]
  ring

/-- **C69** round trip through inexact transforms: synthesis of the outputs of analysis gives the coefficients
multiplied degree by degree by the frame sum, up to an error of norm `B δ` times the norm of the signal, where `B` bounds
the frame sum. -/
theorem C69_round_trip (hn : b.Near jm c J δ) (hsrc : b.isBase = true → b.filters jm c = .ok (psi, phi))
    (hG : c.Filters J b.mr psi phi) (hf : (b.engine c).sphF f c.L = .ok flm) :
    ∃ w s glm, b.analysisWith jm c (psi, phi) f = .ok (w, s) ∧
      b.synthesisWith jm c (psi, phi) w s = (b.engine c).sphI glm c.L ∧ glm.r = c.L ∧ glm.c = 2 * c.L - 1 ∧
      ∀ B : ℝ, (∀ l, 0 ≤ l → l < c.L → frameSum c.J_min J c.L psi phi l ≤ B) →
      energy2 c.L (fun l m => co2 glm l m - (frameSum c.J_min J c.L psi phi l : ℂ) * co2 flm l m) ≤
        (B * δ) ^ 2 * energy2 c.L (co2 flm) := by
  have hv := hn.valid
  have h1 := hv.h1
  obtain ⟨hbl, hh⟩ := hn.std.sph f c.L flm hf
  have hW := fun j => hG.wav_bl hbl j
  have hS := hG.scal_bl hbl
  -- the outputs of the analysis
  have hwN := fun j h0 h1 => hn.wav j _ h0 h1 (hW j).1 (fun hr => (hW j).2 hr (hh hr))
  obtain ⟨s, S', hs, hS', hSd⟩ := hn.scal _ hS.1 (fun hr => hS.2 (hh hr))
  obtain ⟨w, hw⟩ := mapM_all_ok (a := c.J_min) (b := J + 1) (m := fun j =>
    (b.engine c).wigI (wavCoeffs (c.Lj b.mr j) (c.Nj b.mr j) (fun l n => psi.v j l (c.L - 1 + n)) flm)
      (c.Lj b.mr j) (c.Nj b.mr j) (c.L0 b.mr j)) (fun j h0 h1 => by
        obtain ⟨p, -, hp, -⟩ := hwN j h0 (by omega)
        exact ⟨p, hp⟩)
  have hana : b.analysisWith jm c (psi, phi) f = .ok (w, s) := by
    rw [b.analysisWith_formula hv hn.ready hn.std hsrc hG f, hf, Py.bind_ok, hw, Py.bind_ok, hs]
    rfl
  have hlen : (w.length : ℤ) = J + 1 - c.J_min := by
    rw [mapM_length hw, length_pyRange]; omega
  have hwav : ∀ j, c.J_min ≤ j → j ≤ J → ∃ p t', listGet w (j - c.J_min) = .ok p ∧
      (b.engine c).wigI (wavCoeffs (c.Lj b.mr j) (c.Nj b.mr j) (fun l n => psi.v j l (c.L - 1 + n)) flm)
        (c.Lj b.mr j) (c.Nj b.mr j) (c.L0 b.mr j) = .ok p ∧
      (b.engine c).wigF p (c.Lj b.mr j) (c.Nj b.mr j) (c.L0 b.mr j) = .ok t' ∧
      energy3 c.L (fun n l m => co3 t' n l m -
        co3 (wavCoeffs (c.Lj b.mr j) (c.Nj b.mr j) (fun l n => psi.v j l (c.L - 1 + n)) flm) n l m) ≤ δ ^ 2 *
        energy3 c.L (co3 (wavCoeffs (c.Lj b.mr j) (c.Nj b.mr j) (fun l n => psi.v j l (c.L - 1 + n)) flm)) := by
    intro j hj0 hj1
    obtain ⟨p, hp, hp'⟩ := mapM_get hw hj0 (show j < J + 1 by omega)
    obtain ⟨q, t', hq, hq', hd⟩ := hwN j hj0 hj1
    have hp' : (b.engine c).wigI _ _ _ _ = .ok p := hp'
    rw [hp'] at hq; cases hq
    exact ⟨p, t', hp, hp', hq', hd⟩
  have : Nonempty Px := ⟨s⟩
  have : Nonempty (Arr3 ℂ) := ⟨z3⟩
  choose! p t' hp hpI hpF hpd using hwav
  -- the checks of the synthesis
  have hck : b.check jm c w s = .ok () := by
    have hbase : ∀ (E : BaseFFT) (mr : Bool), ShapesMatch E c → b.isBase = true → b.engine c = baseEngine E c → b.mr = mr →
        wavelet_shape_check jm E.toShapes w s c.L c.N c.J_min c.lam c.sampling c.nside mr = .ok () := by
      intro E mr hm hb he hmr
      unfold Backend.scalI at hs
      rw [if_neg (by rw [hb]; simp), he, hmr] at hs
      refine shape_check_ok hv.core E mr hlen (hm.1 _ _ _ hs) fun j hj0 hj1 => ?_
      have hpI' := hpI j hj0 (by omega)
      rw [he, hmr] at hpI'
      exact ⟨_, hp j hj0 (by omega), hm.2 _ _ _ _ _ hpI'⟩
    have hc := hn.checks
    cases b with
    | base E mr => exact hbase E mr hc rfl rfl rfl
    | looped E mr => exact hbase E mr hc.1 rfl rfl rfl
    | _ => rfl
  have hNN : b.isLooped = true → c.reality = true → (b.engine c).NonnegOnly := by
    have hc := hn.checks
    intro hl hr
    cases b
    case looped => exact hc.2 hr
    all_goals cases hl
  -- the synthesis
  have hm : (pyRange c.J_min (J + 1)).mapM (fun j => do
      let fw ← listGet w (j - c.J_min)
      (b.engine c).wigF fw (c.Lj b.mr j) (c.Nj b.mr j) (c.L0 b.mr j)) = .ok ((pyRange c.J_min (J + 1)).map t') := by
    refine mapM_ok fun j hj => ?_
    rw [mem_pyRange] at hj
    rw [hp j hj.1 (by omega), Py.bind_ok, hpF j hj.1 (by omega)]
  refine ⟨w, s, _, hana, by
    rw [b.synthesisWith_formula hv hn.ready hn.std hNN hsrc hG, hck, Py.bind_ok, hS', Py.bind_ok, hm, Py.bind_ok], rfl, rfl, fun B hB => ?_⟩
  have hnth : ∀ j, c.J_min ≤ j → j ≤ J → nth z3 c.J_min ((pyRange c.J_min (J + 1)).map t') j = t' j :=
    fun j h0 h1 => nth_eq h0 (listGet_range _ h0 (by omega))
  have hF := hG.trunc
  have hwc : ∀ j n l m, co3 (wavCoeffs (c.Lj b.mr j) (c.Nj b.mr j) (fun l n => psi.v j l (c.L - 1 + n)) flm) n l m =
      ((8 * Real.pi ^ 2 / (2 * l + 1) : ℝ) : ℂ) * (co2 flm l m * (starRingEnd ℂ) (psi.v j l (c.L - 1 + n))) :=
    fun j n l m => wavCoeffs_co hF hbl.tri (rfl : LN_j c.L j c.N c.lam b.mr = (c.Lj b.mr j, c.Nj b.mr j, c.L0 b.mr j)) n l m
  -- the difference at one degree and order
  set d : ℤ → ℤ → ℤ → ℤ → ℂ := fun j n l m => co3 (t' j) n l m -
    co3 (wavCoeffs (c.Lj b.mr j) (c.Nj b.mr j) (fun l n => psi.v j l (c.L - 1 + n)) flm) n l m with hd
  set e : ℤ → ℤ → ℂ := fun l m => co2 S' l m - co2 (scalCoeffs (c.Ls b.mr) phi.v flm) l m with he
  have hco : ∀ l m, 0 ≤ l → l < c.L → -c.L < m → m < c.L →
      co2 (synCoeffs c.L c.J_min J (fun j l n => psi.v j l (c.L - 1 + n)) phi.v
        (nth z3 c.J_min ((pyRange c.J_min (J + 1)).map t')) S') l m - (frameSum c.J_min J c.L psi phi l : ℂ) * co2 flm l m =
      ∑ j ∈ Finset.Icc c.J_min J, ∑ n ∈ Finset.Ioo (-c.L) c.L, psi.v j l (c.L - 1 + n) * d j n l m +
        ((Real.sqrt (4 * Real.pi / (2 * l + 1)) * phi.v l : ℝ) : ℂ) * e l m := by
    intro l m hl0 hl1 hm0 hm1
    have hl' : (0 : ℝ) ≤ l := by exact_mod_cast hl0
    have hpi := Real.pi_pos
    have hG1 : (frameSum c.J_min J c.L psi phi l : ℂ) * co2 flm l m =
        ∑ j ∈ Finset.Icc c.J_min J, ∑ n ∈ Finset.Ioo (-c.L) c.L, psi.v j l (c.L - 1 + n) *
          co3 (wavCoeffs (c.Lj b.mr j) (c.Nj b.mr j) (fun l n => psi.v j l (c.L - 1 + n)) flm) n l m +
        ((Real.sqrt (4 * Real.pi / (2 * l + 1)) * phi.v l : ℝ) : ℂ) * co2 (scalCoeffs (c.Ls b.mr) phi.v flm) l m := by
      have hw1 : ∀ j n, psi.v j l (c.L - 1 + n) *
          co3 (wavCoeffs (c.Lj b.mr j) (c.Nj b.mr j) (fun l n => psi.v j l (c.L - 1 + n)) flm) n l m =
          (((8 * Real.pi ^ 2 / (2 * l + 1) * ‖psi.v j l (c.L - 1 + n)‖ ^ 2 : ℝ)) : ℂ) * co2 flm l m := by
        intro j n
        rw [hwc]
        have : ((‖psi.v j l (c.L - 1 + n)‖ ^ 2 : ℝ) : ℂ) = psi.v j l (c.L - 1 + n) * (starRingEnd ℂ) (psi.v j l (c.L - 1 + n)) := by
          rw [Complex.mul_conj, Complex.normSq_eq_norm_sq]
        rw [Complex.ofReal_mul, this]
        ring
      have hs1 : co2 (scalCoeffs (c.Ls b.mr) phi.v flm) l m =
          ((Real.sqrt (4 * Real.pi / (2 * l + 1)) * phi.v l : ℝ) : ℂ) * co2 flm l m := scalCoeffs_co hF hbl.tri l m
      have hsq : ((Real.sqrt (4 * Real.pi / (2 * l + 1)) * phi.v l : ℝ) : ℂ) * ((Real.sqrt (4 * Real.pi / (2 * l + 1)) * phi.v l : ℝ) : ℂ)
          = ((4 * Real.pi / (2 * l + 1) * phi.v l ^ 2 : ℝ) : ℂ) := by
        rw [← Complex.ofReal_mul, ← sq, mul_pow, Real.sq_sqrt (by positivity)]
      simp only [hw1, ← Finset.sum_mul]
      rw [hs1, ← mul_assoc, hsq, ← add_mul]
      congr 1
      rw [frameSum]
      simp only [sum_cols_Ioo (L := c.L), ← Complex.ofReal_sum, ← Complex.ofReal_add, ← Finset.mul_sum]
      rw [add_comm]
    rw [hG1, synCoeffs, co2_of, if_pos (by omega), show c.L - 1 + m - (c.L - 1) = m by ring]
    rw [add_sub_add_comm, ← Finset.sum_sub_distrib, ← mul_sub]
    congr 1
    refine Finset.sum_congr rfl fun j hj => ?_
    rw [Finset.mem_Icc] at hj
    rw [← Finset.sum_sub_distrib]
    refine Finset.sum_congr rfl fun n _ => ?_
    rw [hnth j hj.1 hj.2, ← mul_sub]
  -- summing up
  have hB0 : 0 ≤ B := (by
    have := hB 0 le_rfl (by have := hv.top.hL; omega)
    refine le_trans ?_ this
    rw [frameSum]
    have hpi := Real.pi_pos
    have : 0 ≤ ∑ j ∈ Finset.Icc c.J_min J, ∑ k ∈ Finset.Ico 0 (2 * c.L - 1), ‖psi.v j 0 k‖ ^ 2 :=
      Finset.sum_nonneg fun _ _ => Finset.sum_nonneg fun _ _ => sq_nonneg _
    have h2 : (2 * ((0 : ℤ) : ℝ) + 1) = 1 := by norm_num
    rw [h2]
    positivity)
  have step1 : energy2 c.L (fun l m => co2 (synCoeffs c.L c.J_min J (fun j l n => psi.v j l (c.L - 1 + n)) phi.v
        (nth z3 c.J_min ((pyRange c.J_min (J + 1)).map t')) S') l m - (frameSum c.J_min J c.L psi phi l : ℂ) * co2 flm l m) ≤
      B * (∑ j ∈ Finset.Icc c.J_min J, energy3 c.L (d j) + energy2 c.L e) := by
    have hsw : ∑ j ∈ Finset.Icc c.J_min J, energy3 c.L (d j) + energy2 c.L e =
        ∑ l ∈ Finset.Ico 0 c.L, ∑ m ∈ Finset.Ioo (-c.L) c.L, (∑ j ∈ Finset.Icc c.J_min J, ∑ n ∈ Finset.Ioo (-c.L) c.L,
          (2 * l + 1) / (8 * Real.pi ^ 2) * ‖d j n l m‖ ^ 2 + ‖e l m‖ ^ 2) := by
      unfold energy3 energy2
      simp only [Finset.sum_add_distrib]
      congr 1
      rw [Finset.sum_comm]
      refine Finset.sum_congr rfl fun l _ => ?_
      rw [Finset.sum_comm]
    rw [hsw, Finset.mul_sum]
    refine Finset.sum_le_sum fun l hl => ?_
    rw [Finset.mul_sum]
    refine Finset.sum_le_sum fun m hm => ?_
    rw [Finset.mem_Ico] at hl
    rw [Finset.mem_Ioo] at hm
    beta_reduce
    rw [hco l m hl.1 hl.2 hm.1 hm.2]
    refine (syn_le hl.1 psi phi _ _).trans (mul_le_mul_of_nonneg_right (hB l hl.1 hl.2) ?_)
    have hl' : (0 : ℝ) ≤ l := by exact_mod_cast hl.1
    positivity
  have step2 : ∑ j ∈ Finset.Icc c.J_min J, energy3 c.L (d j) + energy2 c.L e ≤ δ ^ 2 * (B * energy2 c.L (co2 flm)) := by
    have h3 : ∑ j ∈ Finset.Icc c.J_min J, energy3 c.L (d j) + energy2 c.L e ≤ δ ^ 2 *
        (∑ j ∈ Finset.Icc c.J_min J, energy3 c.L (co3 (wavCoeffs (c.Lj b.mr j) (c.Nj b.mr j)
          (fun l n => psi.v j l (c.L - 1 + n)) flm)) + energy2 c.L (co2 (scalCoeffs (c.Ls b.mr) phi.v flm))) := by
      rw [mul_add, Finset.mul_sum]
      refine add_le_add (Finset.sum_le_sum fun j hj => ?_) hSd
      rw [Finset.mem_Icc] at hj
      exact hpd j hj.1 hj.2
    refine h3.trans (mul_le_mul_of_nonneg_left ?_ (sq_nonneg _))
    have hsw : ∑ j ∈ Finset.Icc c.J_min J, energy3 c.L (co3 (wavCoeffs (c.Lj b.mr j) (c.Nj b.mr j)
          (fun l n => psi.v j l (c.L - 1 + n)) flm)) + energy2 c.L (co2 (scalCoeffs (c.Ls b.mr) phi.v flm)) =
        ∑ l ∈ Finset.Ico 0 c.L, ∑ m ∈ Finset.Ioo (-c.L) c.L, frameSum c.J_min J c.L psi phi l * ‖co2 flm l m‖ ^ 2 := by
      have : ∀ l ∈ Finset.Ico 0 c.L, ∀ m ∈ Finset.Ioo (-c.L) c.L, frameSum c.J_min J c.L psi phi l * ‖co2 flm l m‖ ^ 2 =
          ∑ j ∈ Finset.Icc c.J_min J, ∑ n ∈ Finset.Ioo (-c.L) c.L, (2 * l + 1) / (8 * Real.pi ^ 2) *
            ‖co3 (wavCoeffs (c.Lj b.mr j) (c.Nj b.mr j) (fun l n => psi.v j l (c.L - 1 + n)) flm) n l m‖ ^ 2 +
          ‖co2 (scalCoeffs (c.Ls b.mr) phi.v flm) l m‖ ^ 2 := by
        intro l hl m _
        rw [Finset.mem_Ico] at hl
        rw [← ana_energy hl.1 psi phi (co2 flm l m)]
        have hs1 : co2 (scalCoeffs (c.Ls b.mr) phi.v flm) l m =
          ((Real.sqrt (4 * Real.pi / (2 * l + 1)) * phi.v l : ℝ) : ℂ) * co2 flm l m := scalCoeffs_co hF hbl.tri l m
        rw [hs1]
        congr 1
        refine Finset.sum_congr rfl fun j _ => Finset.sum_congr rfl fun n _ => ?_
        rw [hwc]
      rw [Finset.sum_congr rfl fun l hl => Finset.sum_congr rfl fun m hm => this l hl m hm]
      unfold energy3 energy2
      simp only [Finset.sum_add_distrib]
      congr 1
      rw [Finset.sum_comm]
      refine Finset.sum_congr rfl fun l _ => ?_
      rw [Finset.sum_comm]
    rw [hsw, energy2, Finset.mul_sum]
    refine Finset.sum_le_sum fun l hl => ?_
    rw [Finset.mul_sum]
    rw [Finset.mem_Ico] at hl
    exact Finset.sum_le_sum fun m _ => mul_le_mul_of_nonneg_right (hB l hl.1 hl.2) (sq_nonneg _)
  refine (step1.trans (mul_le_mul_of_nonneg_left step2 hB0)).trans_eq ?_
  ring

/-- **C69** with the documented filters: the coefficients come back up to a relative error of norm `0.002 + 1.002 δ`, or
`0.001 + 1.001 δ` for the vectorised filters, or `δ` when `k_lam` does not overshoot. -/
theorem C69_error (hn : b.Near jm c J δ) (hδ : 0 ≤ δ) (hf : (b.engine c).sphF f c.L = .ok flm) (hbl : BL2 c.L c.spin flm)
    {k : Arr2 ℝ} (hk : k_lam jm c.L c.lam 300 = .ok k) :
    ∃ w s glm, b.analysis jm c f = .ok (w, s) ∧ b.synthesis jm c w s = (b.engine c).sphI glm c.L ∧
      glm.r = c.L ∧ glm.c = 2 * c.L - 1 ∧
      energy2 c.L (fun l m => co2 glm l m - co2 flm l m) ≤ (501 / 500 * δ + 1 / 500) ^ 2 * energy2 c.L (co2 flm) ∧
      (b.isLooped = false →
        energy2 c.L (fun l m => co2 glm l m - co2 flm l m) ≤ (1001 / 1000 * δ + 1 / 1000) ^ 2 * energy2 c.L (co2 flm)) ∧
      (NoOvershoot k → energy2 c.L (fun l m => co2 glm l m - co2 flm l m) ≤ δ ^ 2 * energy2 c.L (co2 flm)) := by
  have hv := hn.valid
  obtain ⟨psi, phi, hflt⟩ := filters_exist hv b
  have hA := dir_admissible hv.top hv.hN hk (J_min := c.J_min) (spin := c.spin) (spin0 := 0) (psi := psi) (phi := phi)
  have hz : ∀ l, l < |c.spin| → frameSum c.J_min J c.L psi phi l = 0 := fun l hl =>
    hA.2.2 (filters_built hflt) l (lt_of_lt_of_le hl (le_max_left _ _))
  obtain ⟨w, s, glm, h1, h2, h3, h4, h5⟩ := C69_round_trip hn (fun _ => hflt) (filters_ok hv hflt b.mr) hf
  have key : ∀ r : ℝ, 0 ≤ r → (∀ l, 0 ≤ l → l < c.L → |c.spin| ≤ l → frameSum c.J_min J c.L psi phi l ≤ 1 + r) →
      energy2 c.L (fun l m => co2 glm l m - co2 flm l m) ≤ ((1 + r) * δ + r) ^ 2 * energy2 c.L (co2 flm) := by
    intro r hr hle
    have h5 := h5 (1 + r) (fun l h0 h1 => by
        by_cases hs : |c.spin| ≤ l
        · exact hle l h0 h1 hs
        · rw [hz l (by omega)]; linarith)
    have hE := energy2_nonneg c.L (co2 flm)
    set R := Real.sqrt (energy2 c.L (co2 flm)) with hR
    have hRE : R ^ 2 = energy2 c.L (co2 flm) := Real.sq_sqrt hE
    have hR0 : 0 ≤ R := Real.sqrt_nonneg _
    have h6 : energy2 c.L (fun l m => ((frameSum c.J_min J c.L psi phi l - 1 : ℝ) : ℂ) * co2 flm l m) ≤ (r * R) ^ 2 := by
      rw [mul_pow, hRE, energy2, energy2, Finset.mul_sum]
      refine Finset.sum_le_sum fun l hl => ?_
      rw [Finset.mul_sum]
      refine Finset.sum_le_sum fun m _ => ?_
      rw [Finset.mem_Ico] at hl
      by_cases hs : |c.spin| ≤ l
      · rw [norm_mul, mul_pow, Complex.norm_real, Real.norm_eq_abs, sq_abs]
        refine mul_le_mul_of_nonneg_right ?_ (sq_nonneg _)
        have g1 := (frameSum_bounds hv hflt hl.1 hl.2 hs).1.1
        have g2 := hle l hl.1 hl.2 hs
        exact pow_le_pow_left₀ (by linarith) (by linarith) 2
      · rw [hbl.zero l m (Or.inr (by omega))]; simp
    have h7 := energy2_triangle c.L _ _ (A := (1 + r) * δ * R) (B := r * R) (by positivity) (by positivity)
      (h5.trans_eq (by rw [mul_pow _ R, hRE])) h6
    have e : (fun l m => co2 glm l m - co2 flm l m) = fun l m =>
        (co2 glm l m - (frameSum c.J_min J c.L psi phi l : ℂ) * co2 flm l m) +
          ((frameSum c.J_min J c.L psi phi l - 1 : ℝ) : ℂ) * co2 flm l m := by
      funext l m
      push_cast
      ring
    rw [e, ← hRE]
    exact h7.trans_eq (by ring)
  refine ⟨w, s, glm, by rw [b.analysis_eq_with hflt]; exact h1, by rw [b.synthesis_eq_with hflt]; exact h2, h3, h4, ?_,
    fun hb => ?_, fun hno => ?_⟩
  · refine (key (1 / 500) (by norm_num) fun l a d e => ?_).trans_eq (by norm_num)
    have := (frameSum_bounds hv hflt a d e).1.2
    linarith
  · refine (key (1 / 1000) (by norm_num) fun l a d e => ?_).trans_eq (by norm_num)
    have := (frameSum_bounds hv hflt a d e).2 hb
    linarith
  · refine (key 0 le_rfl fun l a d e => ?_).trans_eq (by norm_num)
    exact ((hA.2.1 (filters_built hflt) hno l a d e (by simpa using a)).trans (if_pos rfl)).le.trans_eq (by norm_num)

end

/-! ## Exact transforms are near with `δ = 0`, and an inexact example -/

section
variable {jm : JMax} {c : Cfg} {J : ℤ} {b : Backend}

/-- exact transforms recover the scaling coefficients from the scaling map, for every backend -/
theorem Backend.Works.scal_exact (hw : b.Works jm c J) {a : Arr2 ℂ} (ha : BL2 (c.Ls b.mr) c.spin a)
    (hh : c.reality = true → Herm2 a) :
    ∃ p, b.scalI c a = .ok p ∧ (b.engine c).sphF (b.fscal c p) (c.Ls b.mr) = .ok a := by
  obtain ⟨s, hs, hs'⟩ := hw.exact.sph _ a (hw.valid.Ls_pos b.mr).1 ha hh
  have dc : (b.engine c).Dc c.spin c.reality → c.Ls b.mr = 1 →
      (b.engine c).sphF (Px.ofArr2 (a.map fun x => x * ((Real.sqrt (1 / (4 * Real.pi)) : ℝ) : ℂ))) (c.Ls b.mr) = .ok a := by
    intro hd h1
    rw [h1] at ha ⊢
    exact hd _ ha hh
  have hgen : (b.engine c).Dc c.spin c.reality → b.isBase = false → (∀ p, b.fscal c p = p) →
      ∃ p, b.scalI c a = .ok p ∧ (b.engine c).sphF (b.fscal c p) (c.Ls b.mr) = .ok a := by
    intro hd hb hfs
    unfold Backend.scalI
    by_cases h1 : c.Ls b.mr = 1
    · rw [if_pos ⟨hb, h1⟩]
      exact ⟨_, rfl, by rw [hfs]; exact dc hd h1⟩
    · rw [if_neg (fun h => h1 h.2)]
      exact ⟨s, hs, by rw [hfs]; exact hs'⟩
  have hRT := hw.trip
  cases b with
  | base E mr => exact ⟨s, hs, hs'⟩
  | looped E mr => exact ⟨s, hs, hs'⟩
  | jax E => exact hgen hRT rfl (fun _ => rfl)
  | pre E => exact hgen hRT rfl (fun _ => rfl)
  | torch E => exact hgen hRT rfl (fun _ => rfl)
  | ssht E =>
    obtain ⟨hd, hre⟩ := hRT
    unfold Backend.scalI Backend.fscal
    by_cases h1 : c.Ls (Backend.ssht E).mr = 1
    · rw [if_pos ⟨rfl, h1⟩]
      refine ⟨_, rfl, ?_⟩
      cases hr : c.reality
      · simp only [Bool.false_eq_true, if_false]
        exact dc hd h1
      · have hreal : ∀ l i, (a.v l i).im = 0 := by
          intro l i
          have hr1 : a.r = 1 := ha.r.trans h1
          have hc1 : a.c = 1 := by rw [ha.c, h1]; rfl
          by_cases hi : 0 ≤ l ∧ l < 1 ∧ 0 ≤ i ∧ i < 1
          · have h0 := hh hr l 0
            simp only [co2, hr1, neg_zero, zpow_zero, one_mul] at h0
            have : i = 1 - 1 + 0 := by omega
            rw [this]
            exact Complex.conj_eq_iff_im.1 h0.symm
          · rw [Arr2.junk _ _ _ (by rw [hr1, hc1]; exact hi)]; rfl
        simp only [if_true]
        rw [ofArr2_re fun l i => by rw [Arr2.map_v _ (by simp), Complex.mul_im, hreal]; simp]
        exact dc hd h1
    · rw [if_neg (fun h => h1 h.2)]
      refine ⟨s, hs, ?_⟩
      cases hr : c.reality
      · simp only [Bool.false_eq_true, if_false]
        exact hs'
      · simp only [if_true, hre hr _ _ _ hs]
        exact hs'

theorem Backend.Works.near (hw : b.Works jm c J) (δ : ℝ) : b.Near jm c J δ := by
  have e2 : ∀ a : Arr2 ℂ, energy2 c.L (fun l m => co2 a l m - co2 a l m) ≤ δ ^ 2 * energy2 c.L (co2 a) := fun a => by
    have h0 : energy2 c.L (fun l m => co2 a l m - co2 a l m) = 0 := by simp [energy2]
    rw [h0]
    exact mul_nonneg (sq_nonneg _) (energy2_nonneg _ _)
  have e3 : ∀ t : Arr3 ℂ, energy3 c.L (fun n l m => co3 t n l m - co3 t n l m) ≤ δ ^ 2 * energy3 c.L (co3 t) := fun t => by
    have h0 : energy3 c.L (fun n l m => co3 t n l m - co3 t n l m) = 0 := by simp [energy3]
    rw [h0]
    exact mul_nonneg (sq_nonneg _) (energy3_nonneg _ _)
  refine ⟨hw.valid, hw.ready, hw.std, ?_, fun j t _ _ ht hh => ?_, fun a ha hh => ?_⟩
  · have := hw.trip
    cases b <;> first | exact this | trivial
  · obtain ⟨p, hp, hp'⟩ := hw.exact.wig _ _ _ t (hw.valid.Lj_pos b.mr j).1 (hw.valid.Lj_pos b.mr j).2.1
      (hw.valid.Lj_pos b.mr j).2.2.1 ht hh
    exact ⟨p, t, hp, hp', e3 t⟩
  · obtain ⟨p, hp, hp'⟩ := hw.scal_exact ha hh
    exact ⟨p, a, hp, hp', e2 a⟩

end

/-- a JAX transform whose forward Wigner transform returns values 1% too large -/
noncomputable def Toy.rough : JaxFFT Unit :=
  { Toy.jax with wigForward := fun f L N _ _ _ _ L0 => .ok ((Toy.wigFwd f L N L0).map fun z => ((101 / 100 : ℝ) : ℂ) * z) }

theorem scale3_co (t : Arr3 ℂ) (x : ℝ) (n l m : ℤ) : co3 (t.map fun z => (x : ℂ) * z) n l m = x * co3 t n l m :=
  scale3_v t x _ _ _

theorem Toy.rough_near (reality : Bool) : (Backend.jax Toy.rough).Near j_max (exCfg reality 0) 2 (1 / 100) := by
  have hw := exCfg_works (b := .jax Toy.jax) (Or.inr (Or.inr (Or.inl rfl))) reality 0
  have hn := hw.near (1 / 100)
  refine ⟨hw.valid, hw.ready, ⟨hw.std.sph, fun p L N L0 t ht => ?_⟩, trivial, fun j t h0 h1 ht hh => ?_, hn.scal⟩
  · cases ht
    have := Toy.wigFwd_bl p L N L0
    exact ⟨this.d, this.r, this.c, fun n l m h => by
      rw [scale3_co, this.zero n l m h, mul_zero]⟩
  · obtain ⟨p, hp, hp'⟩ := hw.exact.wig _ _ _ t (hw.valid.Lj_pos true j).1 (hw.valid.Lj_pos true j).2.1
      (hw.valid.Lj_pos true j).2.2.1 ht hh
    cases hp
    refine ⟨_, t.map fun z => ((101 / 100 : ℝ) : ℂ) * z, rfl, ?_, ?_⟩
    · have hp'' : Toy.wigFwd (Toy.wigInv t ((exCfg reality 0).Lj true j) ((exCfg reality 0).Nj true j))
        ((exCfg reality 0).Lj true j) ((exCfg reality 0).Nj true j) ((exCfg reality 0).L0 true j) = t := Except.ok.inj hp'
      exact congrArg (fun u : Arr3 ℂ => (Except.ok (u.map fun z => ((101 / 100 : ℝ) : ℂ) * z) : Py (Arr3 ℂ))) hp''
    · have e : ∀ n l m, co3 (t.map fun z => ((101 / 100 : ℝ) : ℂ) * z) n l m - co3 t n l m = ((1 / 100 : ℝ) : ℂ) * co3 t n l m := by
        intro n l m
        rw [scale3_co]
        push_cast
        ring
      simp only [e, energy3, norm_mul, mul_pow, Complex.norm_real, Real.norm_eq_abs, sq_abs, Finset.mul_sum]
      refine le_of_eq (Finset.sum_congr rfl fun l _ => Finset.sum_congr rfl fun m _ => Finset.sum_congr rfl fun n _ => ?_)
      ring

/-- C69 applies to these inexact transforms: the round trip is accurate to 1% -/
example : ∃ w s glm, Backend.analysis j_max (.jax Toy.rough) (exCfg true 0) (Toy.sphInv true exFlm 3) = .ok (w, s) ∧
    Backend.synthesis j_max (.jax Toy.rough) (exCfg true 0) w s = .ok (Toy.sphInv true glm 3) ∧
    energy2 3 (fun l m => co2 glm l m - co2 exFlm l m) ≤ (1 / 100) ^ 2 * energy2 3 (co2 exFlm) := by
  have hw := exCfg_works (b := .jax Toy.jax) (Or.inr (Or.inr (Or.inl rfl))) true 0
  obtain ⟨p, hp, hp'⟩ := hw.exact.sph 3 exFlm (by norm_num) exFlm_bl (fun _ => exFlm_herm)
  cases hp
  obtain ⟨k, hk, hno⟩ := noOvershoot_3_2
  obtain ⟨w, s, glm, h1, h2, -, -, -, -, h3⟩ := C69_error (Toy.rough_near true) (by norm_num) hp' exFlm_bl hk
  exact ⟨w, s, glm, h1, h2, h3 hno⟩

end S2wav
