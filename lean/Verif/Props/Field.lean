import Verif.Props.Moments
import Mathlib.MeasureTheory.Integral.Bochner.SumMeasure

/-! # Isotropic random signals

Second moments of the maps of a random signal whose coefficients are uncorrelated, with variance `C l` at degree `l`. -/

namespace S2wav
open Classical Sphere MeasureTheory

variable {jm : JMax} {c : Cfg} {J : ℤ} {b : Backend} {psi : Arr3 ℂ} {phi : Arr1 ℝ} {Ω : Type} [MeasurableSpace Ω]

/-- coefficients of spin `s` up to degree `L - 1` that are uncorrelated with variances `C` -/
def Isotropic (μ : Measure Ω) (s L : ℤ) (C : ℤ → ℝ) (A : Ω → ℤ → ℤ → ℂ) : Prop :=
  ∀ l m l' m', max |m| |s| ≤ l → l < L → max |m'| |s| ≤ l' → l' < L → Integrable (fun ω => A ω l m * (starRingEnd ℂ) (A ω l' m')) μ ∧
    ∫ ω, A ω l m * (starRingEnd ℂ) (A ω l' m') ∂μ = if l = l' ∧ m = m' then (C l : ℂ) else 0

/-- second moments of combinations of the coefficients -/
theorem Isotropic.sum {μ : Measure Ω} {s L : ℤ} {C : ℤ → ℝ} {A : Ω → ℤ → ℤ → ℂ} (h : Isotropic μ s L C A) (u v : ℤ → ℤ → ℂ) :
    ∫ ω, (∑ l ∈ Finset.Ico |s| L, ∑ m ∈ Finset.Icc (-l) l, A ω l m * u l m) *
        (starRingEnd ℂ) (∑ l ∈ Finset.Ico |s| L, ∑ m ∈ Finset.Icc (-l) l, A ω l m * v l m) ∂μ =
      ∑ l ∈ Finset.Ico |s| L, (C l : ℂ) * ∑ m ∈ Finset.Icc (-l) l, u l m * (starRingEnd ℂ) (v l m) := by
  set I : Finset ((_ : ℤ) × ℤ) := (Finset.Ico |s| L).sigma fun l => Finset.Icc (-l) l with hI
  have hmem : ∀ q ∈ I, max |q.2| |s| ≤ q.1 ∧ q.1 < L := fun q hq => by
    rw [hI, Finset.mem_sigma, Finset.mem_Ico, Finset.mem_Icc] at hq
    exact ⟨max_le (abs_le.2 hq.2) hq.1.1, hq.1.2⟩
  have hs : ∀ F : ℤ → ℤ → ℂ, ∑ l ∈ Finset.Ico |s| L, ∑ m ∈ Finset.Icc (-l) l, F l m = ∑ p ∈ I, F p.1 p.2 := by
    intro F; rw [hI, Finset.sum_sigma]
  have e : ∀ ω, (∑ l ∈ Finset.Ico |s| L, ∑ m ∈ Finset.Icc (-l) l, A ω l m * u l m) *
      (starRingEnd ℂ) (∑ l ∈ Finset.Ico |s| L, ∑ m ∈ Finset.Icc (-l) l, A ω l m * v l m) = ∑ r ∈ I ×ˢ I,
        (u r.1.1 r.1.2 * (starRingEnd ℂ) (v r.2.1 r.2.2)) * (A ω r.1.1 r.1.2 * (starRingEnd ℂ) (A ω r.2.1 r.2.2)) := by
    intro ω
    rw [hs, hs, map_sum, Finset.sum_mul_sum, Finset.sum_product]
    refine Finset.sum_congr rfl fun p _ => Finset.sum_congr rfl fun q _ => ?_
    rw [map_mul]; ring
  simp only [e]
  rw [integral_finset_sum]
  · simp only [integral_const_mul]
    rw [Finset.sum_product]
    simp only [Finset.mul_sum]
    rw [hs fun l m => (C l : ℂ) * (u l m * (starRingEnd ℂ) (v l m))]
    refine Finset.sum_congr rfl fun p hp => ?_
    have hp' := hmem p hp
    rw [Finset.sum_eq_single p]
    · rw [(h p.1 p.2 p.1 p.2 hp'.1 hp'.2 hp'.1 hp'.2).2, if_pos ⟨rfl, rfl⟩, mul_comm]
    · intro q hq hne
      have hq' := hmem q hq
      rw [(h p.1 p.2 q.1 q.2 hp'.1 hp'.2 hq'.1 hq'.2).2, if_neg, mul_zero]
      rintro ⟨h1, h2⟩
      exact hne (Sigma.ext h1.symm (heq_of_eq h2.symm))
    · intro h; exact absurd hp h
  · intro r hr
    rw [Finset.mem_product] at hr
    have h1 := hmem _ hr.1
    have h2 := hmem _ hr.2
    exact ((h _ _ _ _ h1.1 h1.2 h2.1 h2.2).1).const_mul _

theorem directional_from {s L : ℤ} (a : ℤ → ℤ → ℂ) {p : ℤ → ℤ → ℂ} (hp : ∀ l n, p l n ≠ 0 → |s| ≤ l) (α β γ : ℝ) :
    directional L a p α β γ = ∑ l ∈ Finset.Ico |s| L, ∑ m ∈ Finset.Icc (-l) l, a l m * (starRingEnd ℂ) (rotCoef (euler α β γ) p l m) := by
  unfold directional
  rw [← Finset.sum_subset (Finset.Ico_subset_Ico_left (abs_nonneg s))]
  · simp only [rotCoef, wmat_euler]
  · intro l hl hl'
    rw [Finset.mem_Ico] at hl hl'
    refine Finset.sum_eq_zero fun m _ => ?_
    rw [Finset.sum_eq_zero, map_zero, mul_zero]
    intro n _
    have : p l n = 0 := by
      by_contra h
      have := hp l n h
      omega
    rw [this, mul_zero]

/-- the covariance of two directional convolutions of an isotropic signal -/
theorem directional_cov {μ : Measure Ω} {s L : ℤ} {C : ℤ → ℝ} {A : Ω → ℤ → ℤ → ℂ} (h : Isotropic μ s L C A) {p q : ℤ → ℤ → ℂ}
    (hp : ∀ l n, p l n ≠ 0 → |s| ≤ l) (hq : ∀ l n, q l n ≠ 0 → |s| ≤ l) (α β γ α' β' γ' : ℝ) :
    ∫ ω, directional L (A ω) p α β γ * (starRingEnd ℂ) (directional L (A ω) q α' β' γ') ∂μ = ∑ l ∈ Finset.Ico |s| L, (C l : ℂ) *
      ∑ m ∈ Finset.Icc (-l) l, (starRingEnd ℂ) (rotCoef (euler α β γ) p l m) * rotCoef (euler α' β' γ') q l m := by
  simp only [directional_from _ hp, directional_from _ hq]
  rw [h.sum]
  simp only [Complex.conj_conj]

/-- no degree in common: uncorrelated everywhere -/
theorem directional_uncorrelated {μ : Measure Ω} {s L : ℤ} {C : ℤ → ℝ} {A : Ω → ℤ → ℤ → ℂ} (h : Isotropic μ s L C A) {p q : ℤ → ℤ → ℂ}
    (hp : ∀ l n, p l n ≠ 0 → |s| ≤ l) (hq : ∀ l n, q l n ≠ 0 → |s| ≤ l) (hd : ∀ l n n', p l n ≠ 0 → q l n' = 0) (α β γ α' β' γ' : ℝ) :
    ∫ ω, directional L (A ω) p α β γ * (starRingEnd ℂ) (directional L (A ω) q α' β' γ') ∂μ = 0 := by
  rw [directional_cov h hp hq]
  refine Finset.sum_eq_zero fun l _ => ?_
  rw [Finset.sum_eq_zero, mul_zero]
  intro m _
  by_cases hl : ∃ n, p l n ≠ 0
  · obtain ⟨n, hn⟩ := hl
    have : rotCoef (euler α' β' γ') q l m = 0 := Finset.sum_eq_zero fun n' _ => by rw [hd l n n' hn, mul_zero]
    rw [this, mul_zero]
  · push Not at hl
    have : rotCoef (euler α β γ) p l m = 0 := Finset.sum_eq_zero fun n' _ => by rw [hl n', mul_zero]
    rw [this, map_zero, zero_mul]

/-- the variance does not depend on where -/
theorem directional_var {μ : Measure Ω} {s L : ℤ} {C : ℤ → ℝ} {A : Ω → ℤ → ℤ → ℂ} (h : Isotropic μ s L C A) {p : ℤ → ℤ → ℂ}
    (hp : ∀ l n, p l n ≠ 0 → |s| ≤ l) (α β γ : ℝ) :
    ∫ ω, ‖directional L (A ω) p α β γ‖ ^ 2 ∂μ = ∑ l ∈ Finset.Ico |s| L, C l * ∑ n ∈ Finset.Icc (-l) l, ‖p l n‖ ^ 2 := by
  have h1 := directional_cov h hp hp α β γ α β γ
  have e : ∀ ω, directional L (A ω) p α β γ * (starRingEnd ℂ) (directional L (A ω) p α β γ) = ((‖directional L (A ω) p α β γ‖ ^ 2 : ℝ) : ℂ) := by
    intro ω; rw [Complex.mul_conj']; push_cast; rfl
  simp only [e] at h1
  rw [integral_complex_ofReal] at h1
  have e2 : ∀ l, ∑ m ∈ Finset.Icc (-l) l, (starRingEnd ℂ) (rotCoef (euler α β γ) p l m) * rotCoef (euler α β γ) p l m =
      ((∑ n ∈ Finset.Icc (-l) l, ‖p l n‖ ^ 2 : ℝ) : ℂ) := by
    intro l
    rw [← rotCoef_norm (euler_SU α β γ)]
    push_cast
    exact Finset.sum_congr rfl fun m _ => Complex.conj_mul' _
  simp only [e2] at h1
  exact_mod_cast h1

theorem scalF_from {s : ℤ} {phi : ℤ → ℝ} (l n : ℤ) (h : scalF s phi l n ≠ 0) : |s| ≤ l := by
  by_contra h'
  exact h (if_neg fun h'' => h' h''.2)

theorem scalF_norm {s l : ℤ} (phi : ℤ → ℝ) (hl : |s| ≤ l) : ∑ n ∈ Finset.Icc (-l) l, ‖scalF s phi l n‖ ^ 2 = phi l ^ 2 := by
  have hs' := abs_le.1 hl
  rw [Finset.sum_eq_single (-s)]
  · rw [scalF, if_pos ⟨rfl, hl⟩, Complex.norm_real, Real.norm_eq_abs, sq_abs, mul_pow]
    have h1 : ((-1 : ℝ) ^ s) ^ 2 = 1 := by rw [sq, ← zpow_add₀ (by norm_num)]; exact Even.neg_one_zpow ⟨s, rfl⟩
    rw [h1, one_mul]
  · intro n _ hn
    rw [scalF, if_neg (fun h => hn h.1)]; simp
  · intro h; exact absurd (Finset.mem_Icc.2 ⟨by omega, by omega⟩) h

omit [MeasurableSpace Ω] in
/-- the maps of a family of signals -/
theorem family_maps (hb : IsSphere b) (hv : c.Valid jm J) (hs : SamplingOk b c) (hflt : b.filters jm c = .ok (psi, phi))
    {A : Ω → ℤ → ℤ → ℂ} {f : Ω → Px} (hr : c.reality = true → c.spin = 0 ∧ ∀ ω, RealPx (f ω)) {g : Grid} (hg : gridOf c.sampling c.L = .ok g)
    (hf : ∀ ω, Samples g (series (spinOf b c) c.L (A ω)) (f ω)) :
    ∃ w : Ω → List Px, ∃ s : Ω → Px, ∃ p : ℤ → Ω → Px, ∃ gj : ℤ → Grid, ∃ gs : Grid, (∀ ω, b.analysis jm c (f ω) = .ok (w ω, s ω)) ∧
      (∀ j, c.J_min ≤ j → j ≤ J → gridOf c.sampling (c.Lj b.mr j) = .ok (gj j) ∧ ∀ ω, listGet (w ω) (j - c.J_min) = .ok (p j ω) ∧
        Samples3 (gj j) (c.Nj b.mr j) (directional c.L (A ω) fun l n => psi.v j l (c.L - 1 + n)) (p j ω)) ∧
      gridOf c.sampling (c.Ls b.mr) = .ok gs ∧ ∀ ω, Samples gs (smoothed (spinOf b c) c.L phi.v (A ω)) (s ω) := by
  have h := fun ω => C89_maps hb hv hs hflt (fun h => ⟨(hr h).1, (hr h).2 ω⟩) hg (hf ω)
  choose w s h1 _ h3 gs h4 using h
  have : Nonempty Px := ⟨⟨[], fun _ => 0⟩⟩
  have : Nonempty Grid := ⟨g⟩
  choose! p gj h5 using h3
  obtain ⟨gs', hgs, -⟩ := hs.sampled _ (hv.Ls_pos b.mr).1
  choose gj' hgj _ using fun j => hs.sampled _ (hv.Lj_pos b.mr j).1
  refine ⟨w, s, fun j ω => p ω j, gj', gs', h1, fun j hj hJ => ⟨hgj j, fun ω => ⟨(h5 ω j hj hJ).1, ?_⟩⟩, hgs, fun ω => ?_⟩
  · have h6 := h5 ω j hj hJ
    have e : gj' j = gj ω j := by
      have := (hgj j).symm.trans h6.2.1
      injection this
    rw [e]; exact h6.2.2.1
  · have e : gs' = gs ω := by
      have := hgs.symm.trans (h4 ω).1
      injection this
    rw [e]; exact (h4 ω).2.1

/-- **C92** the maps of an isotropic random signal are homogeneous: every pixel of a wavelet map has second moment
`Σ_l C_l Σ_n |ψ^j_ln|²`, every pixel of the scaling map `Σ_l C_l φ_l²`.  Pixels of scales that are not neighbours, or of the scaling
map and any wavelet map but the first, are uncorrelated, whatever the two positions and orientations. -/
theorem C92_moments (hb : IsSphere b) (hv : c.Valid jm J) (hs : SamplingOk b c) (hflt : b.filters jm c = .ok (psi, phi))
    {μ : Measure Ω} {C : ℤ → ℝ} {A : Ω → ℤ → ℤ → ℂ} (hA : Isotropic μ (spinOf b c) c.L C A) {f : Ω → Px}
    (hr : c.reality = true → c.spin = 0 ∧ ∀ ω, RealPx (f ω)) {g : Grid} (hg : gridOf c.sampling c.L = .ok g)
    (hf : ∀ ω, Samples g (series (spinOf b c) c.L (A ω)) (f ω)) :
    ∃ w : Ω → List Px, ∃ s : Ω → Px, ∃ p : ℤ → Ω → Px, ∃ gj : ℤ → Grid, ∃ gs : Grid, (∀ ω, b.analysis jm c (f ω) = .ok (w ω, s ω)) ∧
      (∀ j, c.J_min ≤ j → j ≤ J → gridOf c.sampling (c.Lj b.mr j) = .ok (gj j) ∧
        (∀ ω, listGet (w ω) (j - c.J_min) = .ok (p j ω) ∧ (p j ω).shape = [2 * c.Nj b.mr j - 1, (gj j).nθ, (gj j).nφ]) ∧
        ∀ y ∈ Finset.Ico 0 (2 * c.Nj b.mr j - 1), ∀ t ∈ Finset.Ico 0 (gj j).nθ, ∀ x ∈ Finset.Ico 0 (gj j).nφ,
          ∫ ω, ‖(p j ω).v [y, t, x]‖ ^ 2 ∂μ =
            ∑ l ∈ Finset.Ico |spinOf b c| c.L, C l * ∑ n ∈ Finset.Icc (-l) l, ‖psi.v j l (c.L - 1 + n)‖ ^ 2) ∧
      (gridOf c.sampling (c.Ls b.mr) = .ok gs ∧ (∀ ω, (s ω).shape = [gs.nθ, gs.nφ]) ∧
        ∀ t ∈ Finset.Ico 0 gs.nθ, ∀ x ∈ Finset.Ico 0 gs.nφ,
          ∫ ω, ‖(s ω).v [t, x]‖ ^ 2 ∂μ = ∑ l ∈ Finset.Ico |spinOf b c| c.L, C l * phi.v l ^ 2) ∧
      (∀ i j, c.J_min ≤ i → i + 1 < j → j ≤ J →
        ∀ y ∈ Finset.Ico 0 (2 * c.Nj b.mr i - 1), ∀ t ∈ Finset.Ico 0 (gj i).nθ, ∀ x ∈ Finset.Ico 0 (gj i).nφ,
        ∀ y' ∈ Finset.Ico 0 (2 * c.Nj b.mr j - 1), ∀ t' ∈ Finset.Ico 0 (gj j).nθ, ∀ x' ∈ Finset.Ico 0 (gj j).nφ,
          ∫ ω, (p i ω).v [y, t, x] * (starRingEnd ℂ) ((p j ω).v [y', t', x']) ∂μ = 0) ∧
      ∀ j, c.J_min < j → j ≤ J → ∀ t ∈ Finset.Ico 0 gs.nθ, ∀ x ∈ Finset.Ico 0 gs.nφ,
        ∀ y' ∈ Finset.Ico 0 (2 * c.Nj b.mr j - 1), ∀ t' ∈ Finset.Ico 0 (gj j).nθ, ∀ x' ∈ Finset.Ico 0 (gj j).nφ,
          ∫ ω, (s ω).v [t, x] * (starRingEnd ℂ) ((p j ω).v [y', t', x']) ∂μ = 0 := by
  have hFl := filters_ok hv hflt b.mr
  have hsup := filters_support hv hflt
  have hlam := hv.top.hlam
  obtain ⟨w, s, p, gj, gs, h1, h2, h3, h4⟩ := family_maps hb hv hs hflt hr hg hf
  have hp : ∀ j l n, psi.v j l (c.L - 1 + n) ≠ 0 → |spinOf b c| ≤ l := fun j l n h => (abs_spinOf b c).trans (hFl.wav j l n h).2.2.2.2.2
  refine ⟨w, s, p, gj, gs, h1, fun j hj hJ => ⟨(h2 j hj hJ).1, fun ω => ⟨((h2 j hj hJ).2 ω).1, ((h2 j hj hJ).2 ω).2.1⟩, fun y hy t ht x hx => ?_⟩,
    ⟨h3, fun ω => (h4 ω).1, fun t ht x hx => ?_⟩, fun i j hi hij hJ y hy t ht x hx y' hy' t' ht' x' hx' => ?_,
    fun j hj hJ t ht x hx y' hy' t' ht' x' hx' => ?_⟩
  · have e : ∀ ω, (p j ω).v [y, t, x] = _ := fun ω => ((h2 j hj hJ).2 ω).2.2 y hy t ht x hx
    simp only [e]
    exact directional_var hA (hp j) _ _ _
  · have e : ∀ ω, (s ω).v [t, x] = _ := fun ω => (h4 ω).2 t ht x hx
    simp only [e, smoothed_directional]
    rw [directional_var hA scalF_from]
    exact Finset.sum_congr rfl fun l hl => by rw [scalF_norm _ (Finset.mem_Ico.1 hl).1]
  · have e : ∀ ω, (p i ω).v [y, t, x] = _ := fun ω => ((h2 i hi (by omega)).2 ω).2.2 y hy t ht x hx
    have e' : ∀ ω, (p j ω).v [y', t', x'] = _ := fun ω => ((h2 j (by omega) hJ).2 ω).2.2 y' hy' t' ht' x' hx'
    simp only [e, e']
    refine directional_uncorrelated hA (hp i) (hp j) (fun l n n' h => ?_) _ _ _ _ _ _
    by_contra h'
    have a1 := (hsup.1 i l _ h).2.1
    have a2 := (hsup.1 j l _ h').1
    have a3 : c.lam ^ (i + 1) ≤ c.lam ^ (j - 1) := zpow_le_zpow_right₀ hlam.le (by omega)
    linarith
  · have e : ∀ ω, (s ω).v [t, x] = _ := fun ω => (h4 ω).2 t ht x hx
    have e' : ∀ ω, (p j ω).v [y', t', x'] = _ := fun ω => ((h2 j (by omega) hJ).2 ω).2.2 y' hy' t' ht' x' hx'
    simp only [e, e', smoothed_directional]
    refine directional_uncorrelated hA scalF_from (hp j) (fun l n n' h => ?_) _ _ _ _ _ _
    by_contra h'
    have a2 := (hsup.1 j l _ h').1
    have a3 : c.lam ^ c.J_min ≤ c.lam ^ (j - 1) := zpow_le_zpow_right₀ hlam.le (by omega)
    refine h ?_
    unfold scalF
    rw [hsup.2.1 l (by linarith)]
    simp

/-! ## A random signal -/

/-- one of the nine coefficients of degree less than 3, each as likely -/
noncomputable def exField (ω : Fin 9) (l m : ℤ) : ℂ := if l * l + l + m = (ω : ℕ) then 3 else 0

/-- each with probability 1/9 -/
noncomputable def exMeasure : Measure (Fin 9) := (1 / 9 : ENNReal) • Measure.count

theorem exField_iso : Isotropic exMeasure 0 3 (fun _ => 1) exField := by
  intro l m l' m' hl hL hl' hL'
  rw [abs_zero] at hl hl'
  have h0 := abs_le.1 ((le_max_left _ _).trans hl)
  have h0' := abs_le.1 ((le_max_left _ _).trans hl')
  have b0 : 0 ≤ l := (le_max_right _ _).trans hl
  have b0' : 0 ≤ l' := (le_max_right _ _).trans hl'
  have hfin : IsFiniteMeasure exMeasure := by
    refine ⟨?_⟩
    rw [exMeasure, Measure.smul_apply, smul_eq_mul]
    exact ENNReal.mul_lt_top (by simp) (measure_lt_top _ _)
  refine ⟨Integrable.of_finite, ?_⟩
  rw [exMeasure, integral_smul_measure, integral_count]
  have e : ∀ ω, exField ω l m * (starRingEnd ℂ) (exField ω l' m') = if l * l + l + m = (ω : ℕ) ∧ l * l + l + m = l' * l' + l' + m' then 9 else 0 := by
    intro ω
    unfold exField
    by_cases h1 : l * l + l + m = (ω : ℕ)
    · by_cases h2 : l' * l' + l' + m' = (ω : ℕ)
      · rw [if_pos h1, if_pos h2, if_pos ⟨h1, by omega⟩, Complex.conj_ofNat]; norm_num
      · rw [if_neg h2, map_zero, mul_zero, if_neg]
        exact fun h => h2 (h.2.symm.trans h.1)
    · rw [if_neg h1, zero_mul, if_neg]
      exact fun h => h1 h.1
  simp only [e]
  have hr : ∃ k : Fin 9, l * l + l + m = (k : ℕ) := by
    obtain rfl | rfl | rfl : l = 0 ∨ l = 1 ∨ l = 2 := by omega
    all_goals exact ⟨⟨(_ : ℤ).toNat, by omega⟩, (Int.toNat_of_nonneg (by omega)).symm⟩
  obtain ⟨k, hk⟩ := hr
  have hi : l * l + l + m = l' * l' + l' + m' ↔ l = l' ∧ m = m' := by
    constructor
    · intro h
      obtain rfl | rfl | rfl : l = 0 ∨ l = 1 ∨ l = 2 := by omega
      all_goals obtain rfl | rfl | rfl : l' = 0 ∨ l' = 1 ∨ l' = 2 := by omega
      all_goals omega
    · rintro ⟨rfl, rfl⟩; rfl
  rw [Finset.sum_eq_single k]
  · simp only [hi]
    by_cases h : l = l' ∧ m = m'
    · rw [if_pos ⟨hk, h⟩, if_pos h]
      norm_num
    · rw [if_neg (fun h' => h h'.2), if_neg h, smul_zero]
  · intro ω _ hne
    rw [if_neg]
    rintro ⟨h, -⟩
    exact hne (Fin.ext (by rw [hk] at h; exact_mod_cast h.symm))
  · intro h; exact absurd (Finset.mem_univ k) h

/-- the maps of `exField` on the `mw` grid -/
example (hb : IsSphere b) (hflt : b.filters j_max (exCfg false 0) = .ok (psi, phi)) : ∃ f : Fin 9 → Px, ∃ w : Fin 9 → List Px, ∃ s : Fin 9 → Px,
    ∃ p : Fin 9 → Px, (∀ ω, b.analysis j_max (exCfg false 0) (f ω) = .ok (w ω, s ω)) ∧ (∀ ω, listGet (w ω) 1 = .ok (p ω)) ∧
    ∫ ω, ‖(p ω).v [0, 0, 0]‖ ^ 2 ∂exMeasure = ∑ l ∈ Finset.Ico 0 3, ∑ n ∈ Finset.Icc (-l) l, ‖psi.v 1 l (2 + n)‖ ^ 2 := by
  obtain ⟨g, hg, -⟩ := exGrid
  have hv := exCfg_valid false 0
  have e : spinOf b (exCfg false 0) = 0 := spinOf_zero rfl
  obtain ⟨w, s, p, gj, gs, h1, h2, -⟩ := C92_moments (b := b) (c := exCfg false 0) (A := exField) (f := fun ω => ⟨[g.nθ, g.nφ], fun i => match i with
      | [t, x] => series 0 3 (exField ω) (g.θ t) (node g.nφ x)
      | _ => 0⟩) hb hv (exSphere_ok b false) hflt (by rw [e]; exact exField_iso) (by simp [exCfg]) hg
    (fun ω => ⟨rfl, fun t _ x _ => by rw [e]; rfl⟩)
  obtain ⟨h3, h4, h5⟩ := h2 1 (by norm_num [exCfg]) (by norm_num)
  have hp := hv.Lj_pos b.mr 1
  have hpos := gridOf_pos (exSphere_ok b false).sampled hp.1 h3
  refine ⟨_, w, s, p 1, h1, fun ω => (h4 ω).1, ?_⟩
  rw [h5 0 (Finset.mem_Ico.2 (by omega)) 0 (Finset.mem_Ico.2 (by omega)) 0 (Finset.mem_Ico.2 (by omega)), e, abs_zero]
  simp only [one_mul]
  rfl

end S2wav
