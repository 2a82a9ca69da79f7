import Verif.Props.Rotate
import Verif.Props.Real

/-! # Synthesis on the sphere -/

namespace S2wav
open Classical Sphere

variable {jm : JMax} {c : Cfg} {J : ℤ} {b : Backend} {f s : Px} {w : List Px} {psi : Arr3 ℂ} {phi : Arr1 ℝ}

/-- the coefficients of a function on the rotation group, as an array -/
noncomputable def toArr3 (L N : ℤ) (W : ℤ → ℤ → ℤ → ℂ) : Arr3 ℂ :=
  Arr3.of (2 * N - 1) L (2 * L - 1) fun k l i =>
    if max |i - (L - 1)| |k - (N - 1)| ≤ l then W (k - (N - 1)) l (i - (L - 1)) else 0

theorem toArr3_co (L N : ℤ) (W : ℤ → ℤ → ℤ → ℂ) (n l m : ℤ) :
    co3 (toArr3 L N W) n l m = if |n| < N ∧ l < L ∧ max |m| |n| ≤ l then W n l m else 0 := by
  unfold toArr3
  rw [co3_of]
  have e : L - 1 + m - (L - 1) = m := by ring
  have e' : N - 1 + n - (N - 1) = n := by ring
  rw [e, e']
  by_cases hl : |n| < N ∧ l < L ∧ max |m| |n| ≤ l
  · have h1 := abs_le.1 ((le_max_left |m| |n|).trans hl.2.2)
    have h2 := abs_lt.1 hl.1
    rw [if_pos hl, if_pos (by omega), if_pos hl.2.2]
  · rw [if_neg hl]
    split_ifs with h1 h2
    · exact absurd ⟨by rw [abs_lt]; omega, h1.2.2.2.1, h2⟩ hl
    · rfl
    · rfl

/-- the coefficients of a real function on the rotation group -/
def HermF3 (W : ℤ → ℤ → ℤ → ℂ) : Prop := ∀ n l m, W (-n) l (-m) = (-1 : ℂ) ^ (n + m) * (starRingEnd ℂ) (W n l m)

theorem toArr3_herm {L N : ℤ} {W : ℤ → ℤ → ℤ → ℂ} (h : HermF3 W) : Herm3 (toArr3 L N W) := by
  intro n l m
  rw [toArr3_co, toArr3_co, abs_neg, abs_neg]
  split_ifs
  · exact h n l m
  · simp

/-- the forward Wigner transform of samples of a function gives its coefficients -/
theorem wigner_samples (hb : IsSphere b) (hG : Sampled (gridOf c.sampling)) {L N L0 : ℤ} (hL : 1 ≤ L) {g : Grid} (hg : gridOf c.sampling L = .ok g)
    {W : ℤ → ℤ → ℤ → ℂ} {p : Px} (hp : Samples3 g N (wseries L N W) p) : (b.engine c).wigF p L N L0 = .ok (toArr3 L N W) := by
  obtain ⟨g', hg', hE⟩ := hG L hL
  rw [hg] at hg'; cases hg'
  rw [engine_eq hb]
  refine (bind_to hg).trans ?_
  have hok : wigFwd g p L N = .ok (Arr3.of (2 * N - 1) L (2 * L - 1) fun k l i =>
    if max |i - (L - 1)| |k - (N - 1)| ≤ l then
      wcoef g L N (fun y j x => p.v [y, j, x]) (k - (N - 1)) l (i - (L - 1)) else 0) := if_pos hp.1
  rw [hok]
  refine congrArg Except.ok (Arr3.ext_co rfl rfl rfl fun n l m => ?_)
  rw [wigFwd_co hok, toArr3_co]
  split_ifs with h
  · exact wcoef_eq hE h.1 h.2.2 h.2.1 hp.2
  · rfl

/-- maps a synthesis is given: samples of functions of the right band-limits -/
structure Maps (b : Backend) (c : Cfg) (J : ℤ) (w : List Px) (s : Px) (W : ℤ → ℤ → ℤ → ℤ → ℂ) (S : ℤ → ℤ → ℂ) : Prop where
  len : (w.length : ℤ) = J + 1 - c.J_min
  wav : ∀ j, c.J_min ≤ j → j ≤ J → ∃ p gj, listGet w (j - c.J_min) = .ok p ∧ gridOf c.sampling (c.Lj b.mr j) = .ok gj ∧
    Samples3 gj (c.Nj b.mr j) (wseries (c.Lj b.mr j) (c.Nj b.mr j) (W j)) p
  scal : ∃ gs, gridOf c.sampling (c.Ls b.mr) = .ok gs ∧ Samples gs (series (spinOf b c) (c.Ls b.mr) S) s

/-- the coefficients of the synthesised signal -/
noncomputable def synF (L J_min J : ℤ) (psi : ℤ → ℤ → ℤ → ℂ) (phi : ℤ → ℝ) (W : ℤ → ℤ → ℤ → ℤ → ℂ) (S : ℤ → ℤ → ℂ) (l m : ℤ) : ℂ :=
  ∑ j ∈ Finset.Icc J_min J, ∑ n ∈ Finset.Icc (-l) l, psi j l n * W j n l m + ((Real.sqrt (4 * Real.pi / (2 * l + 1)) * phi l : ℝ) : ℂ) * S l m

/-- **C88** synthesis of samples of functions is the samples of the signal with coefficients
`Σ_j Σ_n ψ^j_ln W^j_lmn + sqrt(4π/(2l+1)) φ_l S_lm` -/
theorem C88_coefficients (hb : IsSphere b) (hv : c.Valid jm J) (hs : SamplingOk b c) (hflt : b.filters jm c = .ok (psi, phi))
    {W : ℤ → ℤ → ℤ → ℤ → ℂ} {S : ℤ → ℤ → ℂ} (hr : c.reality = true → c.spin = 0 ∧ HermF S ∧ ∀ j, HermF3 (W j))
    (hm : Maps b c J w s W S) {g : Grid} (hg : gridOf c.sampling c.L = .ok g) :
    ∃ r, b.synthesis jm c w s = .ok r ∧
      Samples g (series (spinOf b c) c.L (synF c.L c.J_min J (fun j l n => psi.v j l (c.L - 1 + n)) phi.v W S)) r := by
  obtain ⟨hw, -, -⟩ := C81_works hb hv (fun h => (hr h).1) hs
  have hFl := filters_ok hv hflt b.mr
  have hG := hs.sampled
  have hLs := hv.Ls_pos b.mr
  obtain ⟨gs, hgs, hS⟩ := hm.scal
  have hfs : Samples gs (series (spinOf b c) (c.Ls b.mr) S) (b.fscal c s) := by
    unfold Backend.fscal
    cases b <;> first | exact hS | skip
    show Samples gs _ (if c.reality then s.re else s)
    split_ifs with h
    · refine ⟨hS.1, fun t ht x hx => ?_⟩
      show (((s.v [t, x]).re : ℝ) : ℂ) = _
      rw [hS.2 t ht x hx, spinOf_zero (hr h).1]
      exact Complex.conj_eq_iff_re.1 (series_real (hr h).2.1 _ _)
    · exact hS
  have hc : b.Coeffs c J w s (fun j => toArr3 (c.Lj b.mr j) (c.Nj b.mr j) (W j)) (toArr (spinOf b c) (c.Ls b.mr) S) := by
    refine ⟨hm.len, fun j h0 h1 => ?_, forward_samples hb hG hLs.1 hgs (fun h => ⟨(hr h).1, (hr h).2.1⟩) hfs⟩
    obtain ⟨p, gj, a1, a2, a3⟩ := hm.wav j h0 h1
    exact ⟨p, a1, wigner_samples hb hG (hv.Lj_pos b.mr j).1 a2 a3⟩
  have hck : b.check jm c w s = .ok () := by
    have key : ∀ mr, b.mr = mr → wavelet_shape_check jm Sphere.shapes w s c.L c.N c.J_min c.lam c.sampling c.nside mr = .ok () := by
      rintro mr rfl
      refine shape_check_ok hv.core Sphere.base b.mr hm.len ((bind_to hgs).trans ?_) fun j h0 h1 => ?_
      · rw [hS.1]
      · obtain ⟨p, gj, a1, a2, a3⟩ := hm.wav j h0 (by omega)
        refine ⟨p, a1, (bind_to a2).trans ?_⟩
        rw [a3.1]
    rcases hb with ⟨mr, rfl⟩ | ⟨mr, rfl⟩ | rfl | rfl | rfl | rfl
    · exact key mr rfl
    · exact key mr rfl
    all_goals rfl
  have hbS := (hw.std.sph _ _ _ hc.scal).1
  have hbW : ∀ j, c.J_min ≤ j → j ≤ J → BL3 (c.Lj b.mr j) (c.Nj b.mr j) 0 (toArr3 (c.Lj b.mr j) (c.Nj b.mr j) (W j)) := fun j h0 h1 => by
    obtain ⟨p, -, hp⟩ := hc.wav j h0 h1
    exact hw.std.wig _ _ _ _ _ hp
  have e := synthesis_of_coeffs hw.valid hw.ready hw.std (fun a d => hw.trip.nonneg a d) hflt hc
  rw [hck, Py.bind_ok] at e
  obtain ⟨hco, hbl⟩ := synCoeffs_co hw.valid hflt hbS hbW
  obtain ⟨r, hr1⟩ : ∃ r, (b.engine c).sphI (synCoeffs c.L c.J_min J (fun j l n => psi.v j l (c.L - 1 + n)) phi.v
      (fun j => toArr3 (c.Lj b.mr j) (c.Nj b.mr j) (W j)) (toArr (spinOf b c) (c.Ls b.mr) S)) c.L = .ok r := by
    rw [engine_eq hb]; exact ⟨_, bind_to hg⟩
  refine ⟨r, e.trans hr1, ?_⟩
  have h := inverse_samples hb hg (fun h => synCoeffs_herm hw.valid hflt hbS hbW (toArr_herm (hr h).2.1) fun j _ _ => toArr3_herm ((hr h).2.2 j)) hr1
  refine ⟨h.1, fun t ht x hx => ?_⟩
  rw [h.2 t ht x hx]
  refine series_eq (fun l m h1 h2 => ?_) _ _
  rw [hco]
  unfold synF
  have hml : |m| ≤ l := (le_max_left _ _).trans h2
  congr 1
  · refine Finset.sum_congr rfl fun j _ => ?_
    refine (Finset.sum_subset (s₁ := Finset.Icc (-l) l) (fun n hn => ?_) (fun n _ hn => ?_)).symm.trans (Finset.sum_congr rfl fun n hn => ?_)
    · rw [Finset.mem_Icc] at hn; rw [Finset.mem_Ioo]; omega
    · have : psi.v j l (c.L - 1 + n) = 0 := by
        by_contra h
        exact hn (Finset.mem_Icc.2 (abs_le.1 (hFl.wav j l n h).2.2.2.2.1))
      rw [this, zero_mul]
    · beta_reduce
      by_cases hp : psi.v j l (c.L - 1 + n) = 0
      · rw [hp, zero_mul, zero_mul]
      · have hw' := hFl.wav j l n hp
        rw [toArr3_co, if_pos ⟨hw'.2.2.1, hw'.2.1, max_le hml hw'.2.2.2.2.1⟩]
  · by_cases hp : phi.v l = 0
    · rw [hp]; simp
    · rw [toArr_co, if_pos ⟨(hFl.scal l hp).1, h2⟩]

/-! ## As integrals -/

theorem wseries_wsum {L Lj Nj : ℤ} (hLj : Lj ≤ L) (hNj : Nj ≤ L) (W : ℤ → ℤ → ℤ → ℂ) (α β γ : ℝ) : wseries Lj Nj W α β γ =
    wsum L (fun l m n => if l < Lj ∧ |n| < Nj then (((2 * l + 1) / (8 * Real.pi ^ 2) : ℝ) : ℂ) * W n l m else 0) α β γ := by
  have h1 : wseries Lj Nj W α β γ = ∑ n ∈ Finset.Ioo (-L) L, ∑ l ∈ Finset.Ico |n| L, ∑ m ∈ Finset.Icc (-l) l,
      (if l < Lj ∧ |n| < Nj then (((2 * l + 1) / (8 * Real.pi ^ 2) : ℝ) : ℂ) * W n l m else 0) * (starRingEnd ℂ) (wD l m n α β γ) := by
    unfold wseries
    rw [← Finset.sum_subset (Finset.Ioo_subset_Ioo (neg_le_neg hNj) hNj)]
    · refine Finset.sum_congr rfl fun n hn => ?_
      rw [← Finset.sum_subset (Finset.Ico_subset_Ico_right hLj)]
      · refine Finset.sum_congr rfl fun l hl => Finset.sum_congr rfl fun m hm => ?_
        rw [if_pos ⟨(Finset.mem_Ico.1 hl).2, abs_lt.2 (Finset.mem_Ioo.1 hn)⟩]
      · intro l hl hl'
        refine Finset.sum_eq_zero fun m _ => ?_
        rw [Finset.mem_Ico] at hl hl'
        rw [if_neg (by omega), zero_mul]
    · intro n hn hn'
      refine Finset.sum_eq_zero fun l _ => Finset.sum_eq_zero fun m _ => ?_
      rw [if_neg (fun h => hn' (Finset.mem_Ioo.2 (abs_lt.1 h.2))), zero_mul]
  rw [h1]
  unfold wsum
  have h2 : ∀ F : ℤ → ℤ → ℤ → ℂ, ∑ n ∈ Finset.Ioo (-L) L, ∑ l ∈ Finset.Ico |n| L, ∑ m ∈ Finset.Icc (-l) l, F l m n =
      ∑ l ∈ Finset.Ico 0 L, ∑ n ∈ Finset.Icc (-l) l, ∑ m ∈ Finset.Icc (-l) l, F l m n := by
    intro F
    refine Finset.sum_comm' fun n l => ?_
    simp only [Finset.mem_Ico, Finset.mem_Icc, Finset.mem_Ioo]
    rw [abs_le]
    omega
  rw [h2 fun l m n => _ * _]
  exact Finset.sum_congr rfl fun l _ => Finset.sum_comm

/-- a function on the rotation group times the rotated wavelets, integrated -/
theorem rotInt_synth {s L Lj Nj : ℤ} (hLj : Lj ≤ L) (hNj : Nj ≤ L) (W : ℤ → ℤ → ℤ → ℂ) {psi : ℤ → ℤ → ℂ}
    (hpsi : ∀ l n, psi l n ≠ 0 → l < Lj ∧ |n| < Nj ∧ |s| ≤ l) (θ φ : ℝ) :
    rotInt (fun α β γ => wseries Lj Nj W α β γ * series s L (rotCoef (euler α β γ) psi) θ φ) =
      series s L (fun l m => ∑ n ∈ Finset.Icc (-l) l, psi l n * W n l m) θ φ := by
  have e : ∀ α β γ, series s L (rotCoef (euler α β γ) psi) θ φ =
      (starRingEnd ℂ) (wsum L (fun l m n => (starRingEnd ℂ) (psi l n * sY s l m θ φ)) α β γ) := by
    intro α β γ
    unfold series wsum rotCoef
    simp only [map_sum]
    rw [← Finset.sum_subset (Finset.Ico_subset_Ico_left (abs_nonneg s)) (f := fun l => ∑ m ∈ Finset.Icc (-l) l, _)]
    · refine Finset.sum_congr rfl fun l _ => Finset.sum_congr rfl fun m _ => ?_
      rw [Finset.sum_mul]
      refine Finset.sum_congr rfl fun n _ => ?_
      rw [wmat_euler, map_mul, Complex.conj_conj, Complex.conj_conj]; ring
    · intro l hl hl'
      refine Finset.sum_eq_zero fun m _ => Finset.sum_eq_zero fun n _ => ?_
      rw [Finset.mem_Ico] at hl hl'
      have : psi l n = 0 := by
        by_contra h
        have := (hpsi l n h).2.2
        omega
      rw [this, zero_mul, map_zero, zero_mul, map_zero]
  simp only [wseries_wsum hLj hNj, e]
  rw [rotInt_wsum]
  unfold series
  rw [← Finset.sum_subset (Finset.Ico_subset_Ico_left (abs_nonneg s)) (f := fun l => ∑ m ∈ Finset.Icc (-l) l, _)]
  · refine Finset.sum_congr rfl fun l hl => Finset.sum_congr rfl fun m _ => ?_
    beta_reduce
    rw [Finset.sum_mul]
    refine Finset.sum_congr rfl fun n _ => ?_
    rw [Complex.conj_conj]
    by_cases hp : psi l n = 0
    · rw [hp]; simp
    · rw [if_pos ⟨(hpsi l n hp).1, (hpsi l n hp).2.1⟩]
      have hl0 : (0 : ℝ) ≤ l := by exact_mod_cast (abs_nonneg s).trans (Finset.mem_Ico.1 hl).1
      have hpi := Real.pi_pos
      have h1 : 8 * Real.pi ^ 2 / (2 * l + 1) * ((2 * (l : ℝ) + 1) / (8 * Real.pi ^ 2)) = 1 := by field_simp
      have h1' : ((8 * Real.pi ^ 2 / (2 * l + 1) : ℝ) : ℂ) * (((2 * (l : ℝ) + 1) / (8 * Real.pi ^ 2) : ℝ) : ℂ) = 1 := by
        rw [← Complex.ofReal_mul, h1, Complex.ofReal_one]
      linear_combination (W n l m * psi l n * sY s l m θ φ) * h1'
  · intro l hl hl'
    refine Finset.sum_eq_zero fun m _ => Finset.sum_eq_zero fun n _ => ?_
    rw [Finset.mem_Ico] at hl hl'
    have : psi l n = 0 := by
      by_contra h
      have := (hpsi l n h).2.2
      omega
    rw [this, zero_mul, map_zero, map_zero, mul_zero, mul_zero]

/-- a function on the sphere times the scaling function moved to every direction, integrated -/
theorem sphInt_synth {s L Ls : ℤ} (hLs : Ls ≤ L) (S : ℤ → ℤ → ℂ) {phi : ℤ → ℝ} (hphi : ∀ l, phi l ≠ 0 → l < Ls) (θ φ : ℝ) :
    sphInt (fun θ' φ' => series s Ls S θ' φ' * series s L (rotCoef (euler φ' θ' 0) (scalF s phi)) θ φ) =
      series s L (fun l m => ((Real.sqrt (4 * Real.pi / (2 * l + 1)) * phi l : ℝ) : ℂ) * S l m) θ φ := by
  have e : ∀ θ' φ', series s L (rotCoef (euler φ' θ' 0) (scalF s phi)) θ φ = (starRingEnd ℂ) (series s L (fun l m =>
      (starRingEnd ℂ) (((Real.sqrt (4 * Real.pi / (2 * l + 1)) * phi l : ℝ) : ℂ) * sY s l m θ φ)) θ' φ') := by
    intro θ' φ'
    unfold series
    rw [map_sum]
    refine Finset.sum_congr rfl fun l hl => ?_
    rw [map_sum]
    refine Finset.sum_congr rfl fun m _ => ?_
    have hs := (Finset.mem_Ico.1 hl).1
    have hs' := abs_le.1 hs
    have e1 : rotCoef (euler φ' θ' 0) (scalF s phi) l m = wmat l m (-s) (euler φ' θ' 0) * (((-1) ^ s * phi l : ℝ) : ℂ) := by
      unfold rotCoef
      rw [Finset.sum_eq_single (-s)]
      · rw [scalF, if_pos ⟨rfl, hs⟩]
      · intro n _ hn
        rw [scalF, if_neg (fun h => hn h.1), mul_zero]
      · intro h; exact absurd (Finset.mem_Icc.2 ⟨by omega, by omega⟩) h
    beta_reduce
    rw [e1, map_mul, Complex.conj_conj, sY_wmat s l m θ' φ', map_mul, Complex.conj_conj, Complex.conj_ofReal]
    have hl0 : (0 : ℝ) ≤ l := by exact_mod_cast (abs_nonneg s).trans hs
    have hpi := Real.pi_pos
    have e2 : Real.sqrt (4 * Real.pi / (2 * l + 1)) * Real.sqrt ((2 * l + 1) / (4 * Real.pi)) = 1 := by
      rw [← Real.sqrt_mul (by positivity), show 4 * Real.pi / (2 * (l : ℝ) + 1) * ((2 * l + 1) / (4 * Real.pi)) = 1 by field_simp, Real.sqrt_one]
    have e' : ((Real.sqrt (4 * Real.pi / (2 * l + 1)) : ℝ) : ℂ) * ((Real.sqrt ((2 * l + 1) / (4 * Real.pi)) : ℝ) : ℂ) = 1 := by
      rw [← Complex.ofReal_mul, e2, Complex.ofReal_one]
    rw [Complex.ofReal_mul, Complex.ofReal_mul, Complex.ofReal_mul]
    linear_combination (-(wmat l m (-s) (euler φ' θ' 0) * phi l * (((-1 : ℝ) ^ s : ℝ) : ℂ) * sY s l m θ φ)) * e'
  have e0 : ∀ θ' φ', series s Ls S θ' φ' = series s L (fun l m => if l < Ls then S l m else 0) θ' φ' := by
    intro θ' φ'
    unfold series
    rw [← Finset.sum_subset (Finset.Ico_subset_Ico_right hLs) (f := fun l => ∑ m ∈ Finset.Icc (-l) l, _ * sY s l m θ' φ')]
    · refine Finset.sum_congr rfl fun l hl => Finset.sum_congr rfl fun m _ => ?_
      rw [if_pos (Finset.mem_Ico.1 hl).2]
    · intro l hl hl'
      rw [Finset.mem_Ico] at hl hl'
      refine Finset.sum_eq_zero fun m _ => ?_
      rw [if_neg (by omega), zero_mul]
  simp only [e0, e]
  rw [sphInt_series]
  unfold series
  refine Finset.sum_congr rfl fun l _ => Finset.sum_congr rfl fun m _ => ?_
  rw [Complex.conj_conj]
  by_cases hp : phi l = 0
  · simp [hp]
  · rw [if_pos (hphi l hp)]; ring

/-- **C88** synthesis integrates the maps against the rotated wavelets and the moved scaling function: the pixels of the
synthesised image are the samples of `Σ_j ∫ W_j(ρ) (R_ρ ψ_j) dρ + ∫ S(ω) (R_ω φ) dω` -/
theorem C88_synthesis (hb : IsSphere b) (hv : c.Valid jm J) (hs : SamplingOk b c) (hflt : b.filters jm c = .ok (psi, phi))
    {W : ℤ → ℤ → ℤ → ℤ → ℂ} {S : ℤ → ℤ → ℂ} (hr : c.reality = true → c.spin = 0 ∧ HermF S ∧ ∀ j, HermF3 (W j))
    (hm : Maps b c J w s W S) {g : Grid} (hg : gridOf c.sampling c.L = .ok g) {P : ℤ → ℝ → ℝ → ℝ → ℝ → ℝ → ℂ} {Q : ℝ → ℝ → ℝ → ℝ → ℂ}
    (hP : ∀ j α β γ, Rotated (spinOf b c) (euler α β γ) (series (spinOf b c) c.L fun l m => psi.v j l (c.L - 1 + m)) (P j α β γ))
    (hQ : ∀ θ' φ', Rotated (spinOf b c) (euler φ' θ' 0) (series (spinOf b c) c.L (scalF (spinOf b c) phi.v)) (Q θ' φ')) :
    ∃ r, b.synthesis jm c w s = .ok r ∧ Samples g (fun θ φ =>
      (∑ j ∈ Finset.Icc c.J_min J, rotInt fun α β γ => wseries (c.Lj b.mr j) (c.Nj b.mr j) (W j) α β γ * P j α β γ θ φ) +
      sphInt fun θ' φ' => series (spinOf b c) (c.Ls b.mr) S θ' φ' * Q θ' φ' θ φ) r := by
  have hFl := filters_ok hv hflt b.mr
  obtain ⟨r, h1, h2⟩ := C88_coefficients hb hv hs hflt hr hm hg
  refine ⟨r, h1, h2.1, fun t ht x hx => (h2.2 t ht x hx).trans ?_⟩
  have e1 : ∀ j α β γ, P j α β γ = series (spinOf b c) c.L (rotCoef (euler α β γ) fun l m => psi.v j l (c.L - 1 + m)) :=
    fun j α β γ => (hP j α β γ).series (euler_SU α β γ)
  have e2 : ∀ θ' φ', Q θ' φ' = series (spinOf b c) c.L (rotCoef (euler φ' θ' 0) (scalF (spinOf b c) phi.v)) :=
    fun θ' φ' => (hQ θ' φ').series (euler_SU φ' θ' 0)
  simp only [e1, e2]
  rw [sphInt_synth (hv.Ls_pos b.mr).2 S fun l h => (hFl.scal l h).1]
  have e3 := fun j => rotInt_synth (hv.Lj_pos b.mr j).2.2.2.1 (hv.Lj_pos b.mr j).2.2.2.2 (W j) (s := spinOf b c)
    (psi := fun l m => psi.v j l (c.L - 1 + m)) (fun l n h => ⟨(hFl.wav j l n h).2.1, (hFl.wav j l n h).2.2.1,
      (abs_spinOf b c).trans (hFl.wav j l n h).2.2.2.2.2⟩) (g.θ t) (node g.nφ x)
  simp only [e3]
  unfold series synF
  rw [Finset.sum_comm, ← Finset.sum_add_distrib]
  refine Finset.sum_congr rfl fun l _ => ?_
  rw [Finset.sum_comm, ← Finset.sum_add_distrib]
  refine Finset.sum_congr rfl fun m _ => ?_
  rw [← Finset.sum_mul]; ring

/-! ## Maps to synthesise -/

/-- functions of the right band-limits have maps -/
theorem maps_exist (hv : c.Valid jm J) (hs : SamplingOk b c) (W : ℤ → ℤ → ℤ → ℤ → ℂ) (S : ℤ → ℤ → ℂ) : ∃ w s, Maps b c J w s W S := by
  have hG := hs.sampled
  obtain ⟨gs, hgs, -⟩ := hG _ (hv.Ls_pos b.mr).1
  choose g hg _ using fun j => hG _ (hv.Lj_pos b.mr j).1
  have hJ := hv.h1
  refine ⟨(pyRange c.J_min (J + 1)).map fun j => ⟨[2 * c.Nj b.mr j - 1, (g j).nθ, (g j).nφ], fun i => match i with
      | [y, t, x] => wseries (c.Lj b.mr j) (c.Nj b.mr j) (W j) (node (g j).nφ x) ((g j).θ t) (node (2 * c.Nj b.mr j - 1) y)
      | _ => 0⟩,
    ⟨[gs.nθ, gs.nφ], fun i => match i with
      | [t, x] => series (spinOf b c) (c.Ls b.mr) S (gs.θ t) (node gs.nφ x)
      | _ => 0⟩, ?_, fun j h0 h1 => ⟨_, g j, listGet_range _ h0 (by omega), hg j, rfl, fun y _ t _ x _ => rfl⟩, gs, hgs, rfl, fun t _ x _ => rfl⟩
  rw [List.length_map, length_pyRange]; omega

/-- coefficients of degree 1 and orientations ±1 -/
noncomputable def exW (n l m : ℤ) : ℂ := if l = 1 ∧ m = 0 ∧ (n = 1 ∨ n = -1) then n else 0

theorem exW_herm : HermF3 exW := by
  intro n l m
  unfold exW
  by_cases h : l = 1 ∧ m = 0 ∧ (n = 1 ∨ n = -1)
  · obtain ⟨rfl, rfl, rfl | rfl⟩ := h <;> simp
  · rw [if_neg h, if_neg (by omega)]; simp

example (hb : IsSphere b) (reality : Bool) (hflt : b.filters j_max (exCfg reality 0) = .ok (psi, phi)) : ∃ w s r g,
    Maps b (exCfg reality 0) 2 w s (fun _ => exW) exSig ∧ b.synthesis j_max (exCfg reality 0) w s = .ok r ∧ gridOf "mw" 3 = .ok g ∧
    Samples g (series 0 3 fun l m => if l = 1 ∧ m = 0 then
      ((psi.v 0 1 3 - psi.v 0 1 1) + (psi.v 1 1 3 - psi.v 1 1 1) + (psi.v 2 1 3 - psi.v 2 1 1)) + ((Real.sqrt (4 * Real.pi / 3) * phi.v 1 : ℝ) : ℂ) else 0) r := by
  obtain ⟨g, hg, -⟩ := exGrid
  have e : spinOf b (exCfg reality 0) = 0 := spinOf_zero rfl
  obtain ⟨w, s, hm⟩ := maps_exist (exCfg_valid reality 0) (exSphere_ok b reality) (fun _ => exW) exSig
  obtain ⟨r, h1, h2⟩ := C88_coefficients hb (exCfg_valid reality 0) (exSphere_ok b reality) hflt (fun _ => ⟨rfl, exSig_herm, fun _ => exW_herm⟩) hm hg
  refine ⟨w, s, r, g, hm, h1, hg, ?_⟩
  rw [e, show (exCfg reality 0).L = 3 from rfl] at h2
  convert h2 using 2
  ext l m
  unfold synF
  by_cases h : l = 1 ∧ m = 0
  · obtain ⟨rfl, rfl⟩ := h
    rw [if_pos ⟨rfl, rfl⟩, show Finset.Icc (exCfg reality 0).J_min 2 = {0, 1, 2} by rfl, show Finset.Icc (-1 : ℤ) 1 = {-1, 0, 1} by rfl]
    simp [exW, exSig, exCfg]
    norm_num
    ring
  · rw [if_neg h]
    have h1 : exSig l m = 0 := if_neg h
    have h2 : ∀ n, exW n l m = 0 := fun n => if_neg (by omega)
    simp [h1, h2]

end S2wav
