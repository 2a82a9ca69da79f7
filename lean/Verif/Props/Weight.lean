import Verif.Props.Moments

/-! # Synthesis of weighted maps (C95) -/

namespace S2wav
open Classical Sphere

variable {jm : JMax} {c : Cfg} {J : ℤ} {b : Backend} {f s s' : Px} {w w' : List Px} {psi : Arr3 ℂ} {phi : Arr1 ℝ}

/-- an image times a number -/
noncomputable def Px.times (z : ℂ) (p : Px) : Px := ⟨p.shape, fun i => z * p.v i⟩

/-- the maps `w'`, `s'` are `w`, `s` with scale `j` multiplied by `t j` and the scaling map by `u` -/
structure Weighted (c : Cfg) (J : ℤ) (t : ℤ → ℂ) (u : ℂ) (w : List Px) (s : Px) (w' : List Px) (s' : Px) : Prop where
  len : w'.length = w.length
  wav : ∀ j, c.J_min ≤ j → j ≤ J → ∃ p, listGet w (j - c.J_min) = .ok p ∧ listGet w' (j - c.J_min) = .ok (p.times (t j))
  scal : s' = s.times u

/-- the energy of wavelet `j` at degree `l` -/
noncomputable def wavE (L : ℤ) (psi : Arr3 ℂ) (j l : ℤ) : ℝ := 8 * Real.pi ^ 2 / (2 * l + 1) * ∑ k ∈ Finset.Ico 0 (2 * L - 1), ‖psi.v j l k‖ ^ 2

/-- the energy of the scaling function at degree `l` -/
noncomputable def scalE (phi : Arr1 ℝ) (l : ℤ) : ℝ := 4 * Real.pi / (2 * l + 1) * phi.v l ^ 2

theorem frameSum_parts (J_min J L : ℤ) (psi : Arr3 ℂ) (phi : Arr1 ℝ) (l : ℤ) :
    frameSum J_min J L psi phi l = scalE phi l + ∑ j ∈ Finset.Icc J_min J, wavE L psi j l := by
  unfold frameSum scalE wavE
  rw [Finset.mul_sum]

theorem RealPx.times {p : Px} (h : RealPx p) {z : ℂ} (hz : z.im = 0) : RealPx (p.times z) := by
  intro i hi
  show (z * p.v i).im = 0
  rw [Complex.mul_im, hz, h i hi]; simp

theorem mem_listGet {w : List Px} {p : Px} (h : p ∈ w) : ∃ k : ℤ, 0 ≤ k ∧ k < w.length ∧ listGet w k = .ok p := by
  obtain ⟨n, hn, rfl⟩ := List.mem_iff_getElem.1 h
  refine ⟨n, by omega, by exact_mod_cast hn, ?_⟩
  unfold listGet
  rw [if_pos (by omega)]
  simp [hn]

/-- **C95** synthesis of weighted maps: if the maps of a signal are multiplied by numbers, one for each scale, then synthesis
returns the signal with degree `l` multiplied by the mean of these numbers weighted by the energies of the wavelets and of the
scaling function at degree `l` -/
theorem C95_weighted (hb : IsSphere b) (hv : c.Valid jm J) (hs : SamplingOk b c) (hflt : b.filters jm c = .ok (psi, phi)) {a : ℤ → ℤ → ℂ}
    (hr : c.reality = true → c.spin = 0 ∧ RealPx f) {g : Grid} (hg : gridOf c.sampling c.L = .ok g)
    (hf : Samples g (series (spinOf b c) c.L a) f) (ha : b.analysis jm c f = .ok (w, s)) {t : ℤ → ℂ} {u : ℂ}
    (ht : c.reality = true → u.im = 0 ∧ ∀ j, (t j).im = 0) (hw : Weighted c J t u w s w' s') :
    ∃ r, b.synthesis jm c w' s' = .ok r ∧ Samples g (series (spinOf b c) c.L fun l m =>
      (u * scalE phi l + ∑ j ∈ Finset.Icc c.J_min J, t j * wavE c.L psi j l) * a l m) r ∧ (c.reality = true → RealPx r) := by
  obtain ⟨w₀, s₀, h1, h2, h3, gs, h4, h5, h6⟩ := C89_maps hb hv hs hflt hr hg hf
  rw [ha] at h1
  cases h1
  have hFl := filters_ok hv hflt b.mr
  have hm : Maps b c J w' s' (fun j n l m => t j * (((8 * Real.pi ^ 2 / (2 * l + 1) : ℝ) : ℂ) * (a l m * (starRingEnd ℂ) (psi.v j l (c.L - 1 + n)))))
      (fun l m => u * (((Real.sqrt (4 * Real.pi / (2 * l + 1)) * phi.v l : ℝ) : ℂ) * a l m)) := by
    refine ⟨by rw [hw.len]; exact h2, fun j hj hJ => ?_, gs, h4, ?_⟩
    · obtain ⟨p, gj, a1, a2, a3, -⟩ := h3 j hj hJ
      obtain ⟨p', b1, b2⟩ := hw.wav j hj hJ
      rw [a1] at b1
      cases b1
      refine ⟨_, gj, b2, a2, a3.1, fun y hy x hx z hz => ?_⟩
      show t j * p.v [y, x, z] = _
      rw [a3.2 y hy x hx z hz, ← wseries_map hv hflt]
      unfold wseries
      simp only [Finset.mul_sum]
      refine Finset.sum_congr rfl fun n _ => Finset.sum_congr rfl fun l _ => Finset.sum_congr rfl fun m _ => ?_
      ring
    · rw [hw.scal]
      refine ⟨h5.1, fun x hx z hz => ?_⟩
      show u * s.v [x, z] = _
      rw [h5.2 x hx z hz, smoothed_cut hv hflt]
      unfold series
      simp only [Finset.mul_sum]
      refine Finset.sum_congr rfl fun l _ => Finset.sum_congr rfl fun m _ => ?_
      ring
  have hreal : c.reality = true → c.spin = 0 ∧ RealPx s' ∧ ∀ p ∈ w', RealPx p := by
    intro h
    refine ⟨(hr h).1, by rw [hw.scal]; exact (h6 h).times (ht h).1, fun p hp => ?_⟩
    obtain ⟨k, k1, k2, k3⟩ := mem_listGet hp
    rw [hw.len] at k2
    obtain ⟨p', b1, b2⟩ := hw.wav (k + c.J_min) (by omega) (by omega)
    obtain ⟨q, gj, a1, -, -, a4⟩ := h3 (k + c.J_min) (by omega) (by omega)
    rw [add_sub_cancel_right] at b1 b2 a1
    rw [k3] at b2
    rw [a1] at b1
    cases b1; cases b2
    exact (a4 h).times ((ht h).2 _)
  obtain ⟨r, c1, c2, c3⟩ := C89_coefficients hb hv hs hflt hreal hm hg
  refine ⟨r, c1, ⟨c2.1, fun y hy x hx => ?_⟩, c3⟩
  rw [c2.2 y hy x hx]
  refine series_eq (fun l m hl hm => ?_) _ _
  have hl0 : 0 ≤ l := (abs_nonneg m).trans ((le_max_left _ _).trans hm)
  have hlR : (0 : ℝ) ≤ l := by exact_mod_cast hl0
  have hpos : (0 : ℝ) ≤ 4 * Real.pi / (2 * l + 1) := by
    have := Real.pi_pos
    positivity
  have es := Real.mul_self_sqrt hpos
  unfold synF scalE
  rw [add_mul, add_comm, Finset.sum_mul]
  congr 1
  · have e : ((Real.sqrt (4 * Real.pi / (2 * l + 1)) * phi.v l * (Real.sqrt (4 * Real.pi / (2 * l + 1)) * phi.v l) : ℝ) : ℂ) =
        ((4 * Real.pi / (2 * l + 1) * phi.v l ^ 2 : ℝ) : ℂ) := by
      congr 1
      linear_combination phi.v l ^ 2 * es
    rw [← e, Complex.ofReal_mul (_ * _)]
    ring
  · refine Finset.sum_congr rfl fun j _ => ?_
    have hz : ∀ n ∈ Finset.Ioo (-c.L) c.L, n ∉ Finset.Icc (-l) l → psi.v j l (c.L - 1 + n) = 0 := by
      intro n _ hn
      by_contra h
      exact hn (Finset.mem_Icc.2 (abs_le.1 (hFl.wav j l n h).2.2.2.2.1))
    have hsub : Finset.Icc (-l) l ⊆ Finset.Ioo (-c.L) c.L := by
      intro n hn
      rw [Finset.mem_Icc] at hn
      rw [Finset.mem_Ioo]; omega
    unfold wavE
    rw [sum_cols_Ioo (L := c.L) fun n => ‖psi.v j l n‖ ^ 2, ← Finset.sum_subset hsub fun n h1 h2 => by rw [hz n h1 h2]; simp,
      Complex.ofReal_mul, Complex.ofReal_sum, Finset.mul_sum, Finset.mul_sum, Finset.sum_mul]
    refine Finset.sum_congr rfl fun n _ => ?_
    have e1 := Complex.mul_conj (psi.v j l (c.L - 1 + n))
    rw [Complex.normSq_eq_norm_sq] at e1
    linear_combination t j * ((8 * Real.pi ^ 2 / (2 * l + 1) : ℝ) : ℂ) * a l m * e1

theorem wavE_nonneg {L : ℤ} (psi : Arr3 ℂ) (j : ℤ) {l : ℤ} (hl : 0 ≤ l) : 0 ≤ wavE L psi j l := by
  have hl' : (0 : ℝ) ≤ l := by exact_mod_cast hl
  have := Finset.sum_nonneg fun k (_ : k ∈ Finset.Ico 0 (2 * L - 1)) => sq_nonneg ‖psi.v j l k‖
  unfold wavE
  positivity

theorem scalE_nonneg (phi : Arr1 ℝ) {l : ℤ} (hl : 0 ≤ l) : 0 ≤ scalE phi l := by
  have hl' : (0 : ℝ) ≤ l := by exact_mod_cast hl
  have := Real.pi_pos
  unfold scalE
  positivity

theorem wavE_zero (hv : c.Valid jm J) (hflt : b.filters jm c = .ok (psi, phi)) {j l : ℤ}
    (h : (l : ℝ) ≤ c.lam ^ (j - 1) ∨ c.lam ^ (j + 1) ≤ (l : ℝ)) : wavE c.L psi j l = 0 := by
  unfold wavE
  rw [Finset.sum_eq_zero, mul_zero]
  intro k _
  have : psi.v j l k = 0 := by
    by_contra hp
    have := (filters_support hv hflt).1 j l k hp
    rcases h with h | h
    · linarith
    · linarith
  rw [this]; simp

theorem scalE_zero (hv : c.Valid jm J) (hflt : b.filters jm c = .ok (psi, phi)) {l : ℤ} (h : c.lam ^ c.J_min ≤ (l : ℝ)) :
    scalE phi l = 0 := by
  unfold scalE
  rw [(filters_support hv hflt).2.1 l h]; ring

/-- what is kept of degree `l` by the scaling map and the wavelet maps up to scale `i` -/
noncomputable def lowpass (c : Cfg) (J i : ℤ) (psi : Arr3 ℂ) (phi : Arr1 ℝ) (l : ℤ) : ℝ :=
  scalE phi l + ∑ j ∈ (Finset.Icc c.J_min J).filter (· ≤ i), wavE c.L psi j l

/-- **C95** the coarse scales keep the low degrees: all of degree `l ≤ lam^i` (a factor 1 without overshoot, and at most 1.002
in general), nothing of degree `l ≥ lam^(i+1)`, a part in between, and never less than with fewer scales -/
theorem C95_lowpass (hv : c.Valid jm J) (hflt : b.filters jm c = .ok (psi, phi)) {i l : ℤ} (hi : c.J_min - 1 ≤ i) (hl0 : 0 ≤ l) (hl1 : l < c.L) :
    (|c.spin| ≤ l → (l : ℝ) ≤ c.lam ^ i → lowpass c J i psi phi l = frameSum c.J_min J c.L psi phi l ∧ 1 ≤ lowpass c J i psi phi l) ∧
    (c.lam ^ (i + 1) ≤ (l : ℝ) → lowpass c J i psi phi l = 0) ∧
    0 ≤ lowpass c J i psi phi l ∧ lowpass c J i psi phi l ≤ 501 / 500 ∧
    (∀ k : Arr2 ℝ, k_lam jm c.L c.lam 300 = .ok k → NoOvershoot k →
      lowpass c J i psi phi l ≤ 1 ∧ (|c.spin| ≤ l → (l : ℝ) ≤ c.lam ^ i → lowpass c J i psi phi l = 1)) ∧
    ∀ i', i ≤ i' → lowpass c J i psi phi l ≤ lowpass c J i' psi phi l := by
  have hlam := hv.top.hlam
  have hw := fun j => wavE_nonneg (L := c.L) psi j hl0
  have hfull : (l : ℝ) ≤ c.lam ^ i → lowpass c J i psi phi l = frameSum c.J_min J c.L psi phi l := by
    intro h
    rw [frameSum_parts]
    unfold lowpass
    congr 1
    refine Finset.sum_subset (Finset.filter_subset _ _) fun j hj hj' => wavE_zero hv hflt (Or.inl (h.trans ?_))
    rw [Finset.mem_filter, not_and] at hj'
    have := hj' hj
    exact zpow_le_zpow_right₀ hlam.le (by omega)
  have hle : lowpass c J i psi phi l ≤ frameSum c.J_min J c.L psi phi l := by
    rw [frameSum_parts]
    unfold lowpass
    have := Finset.sum_le_sum_of_subset_of_nonneg (Finset.filter_subset (· ≤ i) (Finset.Icc c.J_min J)) fun j _ _ => hw j
    linarith
  have hspin : ¬ |c.spin| ≤ l → frameSum c.J_min J c.L psi phi l = 0 := fun h => by
    exact (dir_admissible hv.top hv.hN (k_lam_ok hv.top (by norm_num))).2.2 (filters_built hflt) l (by rw [abs_zero]; exact lt_max_of_lt_left (not_le.1 h))
  refine ⟨fun h1 h2 => ?_, fun h => ?_, ?_, ?_, fun k hk hno => ?_, fun i' hi' => ?_⟩
  · have e := hfull h2
    exact ⟨e, by rw [e]; exact (frameSum_bounds hv hflt hl0 hl1 h1).1.1⟩
  · unfold lowpass
    rw [scalE_zero hv hflt ((zpow_le_zpow_right₀ hlam.le (by omega)).trans h), Finset.sum_eq_zero, add_zero]
    intro j hj
    rw [Finset.mem_filter] at hj
    exact wavE_zero hv hflt (Or.inr ((zpow_le_zpow_right₀ hlam.le (by omega)).trans h))
  · exact add_nonneg (scalE_nonneg phi hl0) (Finset.sum_nonneg fun j _ => hw j)
  · by_cases h : |c.spin| ≤ l
    · exact hle.trans (frameSum_bounds hv hflt hl0 hl1 h).1.2
    · rw [hspin h] at hle; linarith
  · have h1 : |c.spin| ≤ l → frameSum c.J_min J c.L psi phi l = 1 := fun h => by
      have := (dir_admissible hv.top hv.hN hk).2.1 (filters_built hflt) hno l hl0 hl1 h (by simpa using hl0)
      simpa using this
    refine ⟨?_, fun h h2 => by rw [hfull h2, h1 h]⟩
    by_cases h : |c.spin| ≤ l
    · rw [← h1 h]; exact hle
    · rw [hspin h] at hle; linarith
  · unfold lowpass
    refine add_le_add_right (Finset.sum_le_sum_of_subset_of_nonneg (fun j hj => ?_) fun j _ _ => hw j) _
    rw [Finset.mem_filter] at hj ⊢
    exact ⟨hj.1, hj.2.trans hi'⟩

/-- **C95** synthesis from the coarse scales: with the maps above scale `i` set to zero, degree `l` of the signal is multiplied
by the number of `C95_lowpass` -/
theorem C95_coarse (hb : IsSphere b) (hv : c.Valid jm J) (hs : SamplingOk b c) (hflt : b.filters jm c = .ok (psi, phi)) {a : ℤ → ℤ → ℂ}
    (hr : c.reality = true → c.spin = 0 ∧ RealPx f) {g : Grid} (hg : gridOf c.sampling c.L = .ok g)
    (hf : Samples g (series (spinOf b c) c.L a) f) (ha : b.analysis jm c f = .ok (w, s)) {i : ℤ}
    (hw : Weighted c J (fun j => if j ≤ i then 1 else 0) 1 w s w' s') :
    ∃ r, b.synthesis jm c w' s' = .ok r ∧ Samples g (series (spinOf b c) c.L fun l m => lowpass c J i psi phi l * a l m) r := by
  obtain ⟨r, h1, h2, -⟩ := C95_weighted hb hv hs hflt hr hg hf ha (fun _ => ⟨Complex.one_im, fun j => by split_ifs <;> rfl⟩) hw
  refine ⟨r, h1, h2.1, fun y hy x hx => ?_⟩
  rw [h2.2 y hy x hx]
  congr 1
  ext l m
  unfold lowpass
  rw [Complex.ofReal_add, Complex.ofReal_sum, Finset.sum_filter, one_mul]
  congr 2
  refine Finset.sum_congr rfl fun j _ => ?_
  split_ifs <;> simp

/-- **C95** signals of low band-limit are reconstructed from the coarse scales alone: if the signal has no degree above `lam^i`,
the maps above scale `i` can be replaced by zero -/
theorem C95_progressive (hb : IsSphere b) (hv : c.Valid jm J) (hs : SamplingOk b c) {k : Arr2 ℝ}
    (hk : k_lam jm c.L c.lam 300 = .ok k) (hno : NoOvershoot k) {a : ℤ → ℤ → ℂ} (hspin : ∀ l m, l < |c.spin| → a l m = 0) {i : ℤ}
    (hi : c.J_min - 1 ≤ i) (hi' : ∀ l m : ℤ, c.lam ^ i < (l : ℝ) → a l m = 0)
    (hr : c.reality = true → c.spin = 0 ∧ RealPx f) {g : Grid} (hg : gridOf c.sampling c.L = .ok g)
    (hf : Samples g (series (spinOf b c) c.L a) f) (ha : b.analysis jm c f = .ok (w, s))
    (hw : Weighted c J (fun j => if j ≤ i then 1 else 0) 1 w s w' s') :
    ∃ r, b.synthesis jm c w' s' = .ok r ∧ r.shape = f.shape ∧
      ∀ t ∈ Finset.Ico 0 g.nθ, ∀ x ∈ Finset.Ico 0 g.nφ, r.v [t, x] = f.v [t, x] := by
  obtain ⟨psi, phi, hflt⟩ := filters_exist hv b
  obtain ⟨r, h1, h2⟩ := C95_coarse hb hv hs hflt hr hg hf ha hw
  refine ⟨r, h1, h2.1.trans hf.1.symm, fun t ht x hx => ?_⟩
  rw [h2.2 t ht x hx, hf.2 t ht x hx]
  refine series_eq (fun l m hl hm => ?_) _ _
  by_cases hz : a l m = 0
  · rw [hz, mul_zero]
  · have h3 : |c.spin| ≤ l := not_lt.1 fun h => hz (hspin l m h)
    have h4 : (l : ℝ) ≤ c.lam ^ i := not_lt.1 fun h => hz (hi' l m h)
    rw [((C95_lowpass hv hflt hi ((abs_nonneg _).trans h3) hl).2.2.2.2.1 k hk hno).2 h3 h4, Complex.ofReal_one, one_mul]

/-- **C95** synthesis from a single scale: degree `l` is multiplied by the energy of the wavelet, between 0 and 1.002, and by
zero outside `lam^(i-1) < l < lam^(i+1)` -/
theorem C95_bandpass (hb : IsSphere b) (hv : c.Valid jm J) (hs : SamplingOk b c) (hflt : b.filters jm c = .ok (psi, phi)) {a : ℤ → ℤ → ℂ}
    (hr : c.reality = true → c.spin = 0 ∧ RealPx f) {g : Grid} (hg : gridOf c.sampling c.L = .ok g)
    (hf : Samples g (series (spinOf b c) c.L a) f) (ha : b.analysis jm c f = .ok (w, s)) {i : ℤ} (hi0 : c.J_min ≤ i) (hi1 : i ≤ J)
    (hw : Weighted c J (fun j => if j = i then 1 else 0) 0 w s w' s') :
    (∃ r, b.synthesis jm c w' s' = .ok r ∧ Samples g (series (spinOf b c) c.L fun l m => wavE c.L psi i l * a l m) r) ∧
    ∀ l, 0 ≤ l → l < c.L → 0 ≤ wavE c.L psi i l ∧ wavE c.L psi i l ≤ 501 / 500 ∧
      (wavE c.L psi i l ≠ 0 → c.lam ^ (i - 1) < (l : ℝ) ∧ (l : ℝ) < c.lam ^ (i + 1)) := by
  constructor
  · obtain ⟨r, h1, h2, -⟩ := C95_weighted hb hv hs hflt hr hg hf ha (fun _ => ⟨Complex.zero_im, fun j => by split_ifs <;> rfl⟩) hw
    refine ⟨r, h1, h2.1, fun y hy x hx => ?_⟩
    rw [h2.2 y hy x hx]
    congr 1
    ext l m
    rw [zero_mul, zero_add, Finset.sum_eq_single i]
    · rw [if_pos rfl, one_mul]
    · intro j _ hj; rw [if_neg hj, zero_mul]
    · intro h; exact absurd (Finset.mem_Icc.2 ⟨hi0, hi1⟩) h
  · intro l hl0 hl1
    refine ⟨wavE_nonneg psi i hl0, ?_, fun h => ?_⟩
    · refine le_trans ?_ (C95_lowpass hv hflt (i := J) (by have := hv.h1; omega) hl0 hl1).2.2.2.1
      unfold lowpass
      refine le_add_of_nonneg_of_le (scalE_nonneg phi hl0) ?_
      exact Finset.single_le_sum (f := fun j => wavE c.L psi j l) (fun j _ => wavE_nonneg psi j hl0)
        (Finset.mem_filter.2 ⟨Finset.mem_Icc.2 ⟨hi0, hi1⟩, hi1⟩)
    · constructor
      · by_contra h'; exact h (wavE_zero hv hflt (Or.inl (not_lt.1 h')))
      · by_contra h'; exact h (wavE_zero hv hflt (Or.inr (not_lt.1 h')))

/-- **C95** scales two or more apart do not mix: the analysis of a signal synthesised from one scale only, whatever the map, is
zero at the scales two or more apart, and in the scaling map if the scale is above the lowest -/
theorem C95_apart (hb : IsSphere b) (hv : c.Valid jm J) (hs : SamplingOk b c)
    {W : ℤ → ℤ → ℤ → ℤ → ℂ} {S : ℤ → ℤ → ℂ} (hr : c.reality = true → c.spin = 0 ∧ RealPx s ∧ ∀ p ∈ w, RealPx p)
    (hm : Maps b c J w s W S) {i : ℤ} (hW : ∀ j n l m, j ≠ i → W j n l m = 0) (hS : ∀ l m, S l m = 0) :
    ∃ r w' s', b.synthesis jm c w s = .ok r ∧ b.analysis jm c r = .ok (w', s') ∧
      (∀ j, c.J_min ≤ j → j ≤ J → 2 ≤ |i - j| → ∃ p gj, listGet w' (j - c.J_min) = .ok p ∧ gridOf c.sampling (c.Lj b.mr j) = .ok gj ∧
        Samples3 gj (c.Nj b.mr j) (fun _ _ _ => 0) p) ∧
      (c.J_min < i → ∃ gs, gridOf c.sampling (c.Ls b.mr) = .ok gs ∧ Samples gs (fun _ _ => 0) s') := by
  obtain ⟨psi, phi, hflt⟩ := filters_exist hv b
  have hsup := filters_support hv hflt
  have hlam := hv.top.hlam
  obtain ⟨g, hg, -⟩ := hs.sampled c.L hv.top.hL
  obtain ⟨r, h1, h2, h3⟩ := C89_coefficients hb hv hs hflt hr hm hg
  obtain ⟨w', s', h4, -, h6, gs, h7, h8, -⟩ := C89_maps hb hv hs hflt (fun h => ⟨(hr h).1, h3 h⟩) hg h2
  have hsyn : ∀ l m, synF c.L c.J_min J (fun j l n => psi.v j l (c.L - 1 + n)) phi.v W S l m ≠ 0 → c.lam ^ (i - 1) < (l : ℝ) ∧ (l : ℝ) < c.lam ^ (i + 1) := by
    intro l m h
    by_contra hc
    refine h ?_
    unfold synF
    rw [hS, mul_zero, add_zero]
    refine Finset.sum_eq_zero fun j _ => Finset.sum_eq_zero fun n _ => ?_
    by_cases hj : j = i
    · subst hj
      have : psi.v j l (c.L - 1 + n) = 0 := by
        by_contra hp
        exact hc ⟨(hsup.1 j l _ hp).1, (hsup.1 j l _ hp).2.1⟩
      beta_reduce
      rw [this, zero_mul]
    · rw [hW j n l m hj, mul_zero]
  refine ⟨r, w', s', h1, h4, fun j hj hJ hij => ?_, fun hi => ⟨gs, h7, h8.1, fun t ht x hx => ?_⟩⟩
  · obtain ⟨p, gj, a1, a2, a3, -⟩ := h6 j hj hJ
    refine ⟨p, gj, a1, a2, a3.1, fun y hy t ht x hx => ?_⟩
    rw [a3.2 y hy t ht x hx]
    unfold directional
    refine Finset.sum_eq_zero fun l _ => Finset.sum_eq_zero fun m _ => ?_
    by_cases h : synF c.L c.J_min J (fun j l n => psi.v j l (c.L - 1 + n)) phi.v W S l m = 0
    · rw [h, zero_mul]
    · obtain ⟨q1, q2⟩ := hsyn l m h
      rw [Finset.sum_eq_zero, map_zero, mul_zero]
      intro n _
      have : psi.v j l (c.L - 1 + n) = 0 := by
        by_contra hp
        obtain ⟨p1, p2, -⟩ := hsup.1 j l _ hp
        rcases le_or_gt j i with hji | hji
        · have : c.lam ^ (j + 1) ≤ c.lam ^ (i - 1) := zpow_le_zpow_right₀ hlam.le (by rw [abs_of_nonneg (by omega)] at hij; omega)
          linarith
        · have : c.lam ^ (i + 1) ≤ c.lam ^ (j - 1) := zpow_le_zpow_right₀ hlam.le (by rw [abs_of_neg (by omega)] at hij; omega)
          linarith
      beta_reduce
      rw [this, mul_zero]
  · rw [h8.2 t ht x hx]
    unfold smoothed series
    refine Finset.sum_eq_zero fun l _ => Finset.sum_eq_zero fun m _ => ?_
    beta_reduce
    by_cases h : synF c.L c.J_min J (fun j l n => psi.v j l (c.L - 1 + n)) phi.v W S l m = 0
    · rw [h, mul_zero, zero_mul]
    · obtain ⟨q1, -⟩ := hsyn l m h
      have : c.lam ^ c.J_min ≤ c.lam ^ (i - 1) := zpow_le_zpow_right₀ hlam.le (by omega)
      rw [hsup.2.1 l (by linarith)]; simp

/-- weighted maps exist -/
theorem weighted_exist (hlen : (w.length : ℤ) = J + 1 - c.J_min) (t : ℤ → ℂ) (u : ℂ) : ∃ w' s', Weighted c J t u w s w' s' := by
  refine ⟨w.mapIdx fun k p => p.times (t (k + c.J_min)), s.times u, by simp, fun j h0 h1 => ?_, rfl⟩
  have hj : (j - c.J_min).toNat < w.length := by omega
  refine ⟨w[(j - c.J_min).toNat], ?_, ?_⟩
  · unfold listGet
    rw [if_pos (by omega)]
    simp [hj]
  · unfold listGet
    rw [if_pos (by omega), List.getElem?_mapIdx]
    have e : max (j - c.J_min) 0 + c.J_min = j := by omega
    simp [hj, e]

/-- a signal of degree 1 is reconstructed from the maps up to scale 0 of three -/
example (hb : IsSphere b) (reality : Bool) : ∃ w s w' s' r, b.analysis j_max (exCfg reality 0) exImg = .ok (w, s) ∧
    Weighted (exCfg reality 0) 2 (fun j => if j ≤ 0 then 1 else 0) 1 w s w' s' ∧ b.synthesis j_max (exCfg reality 0) w' s' = .ok r ∧
    ∀ t ∈ Finset.Ico 0 3, ∀ x ∈ Finset.Ico 0 5, r.v [t, x] = exImg.v [t, x] := by
  obtain ⟨g, hg, hf⟩ := exGrid
  have e : spinOf b (exCfg reality 0) = 0 := spinOf_zero rfl
  have hv := exCfg_valid reality 0
  obtain ⟨psi, phi, hflt⟩ := filters_exist hv b
  have hr : (exCfg reality 0).reality = true → (exCfg reality 0).spin = 0 ∧ RealPx exImg := fun _ => ⟨rfl, exImg_real⟩
  obtain ⟨w, s, h1, h2, -⟩ := C89_maps (a := exSig) hb hv (exSphere_ok b reality) hflt hr hg (by rw [e]; exact hf)
  obtain ⟨w', s', hw⟩ := weighted_exist (c := exCfg reality 0) (s := s) h2 (fun j => if j ≤ 0 then 1 else 0) 1
  obtain ⟨k, hk, hno⟩ := noOvershoot_3_2
  obtain ⟨r, h3, -, h4⟩ := C95_progressive (a := exSig) hb hv (exSphere_ok b reality) hk hno
    (fun l m h => if_neg (by rw [show (exCfg reality 0).spin = 0 from rfl, abs_zero] at h; omega)) (i := 0) (by norm_num [exCfg])
    (fun l m h => if_neg (by
      rw [zpow_zero] at h
      have : (1 : ℤ) < l := by exact_mod_cast h
      omega)) hr hg (by rw [e]; exact hf) h1 hw
  have hs := hf.1
  have hsh : [(3 : ℤ), 5] = [g.nθ, g.nφ] := hs
  injection hsh with hn hs2
  injection hs2 with hp _
  exact ⟨w, s, w', s', r, h1, hw, h3, by rw [hn, hp]; exact h4⟩

/-- a map at scale 0 only: nothing at scale 2 -/
example (hb : IsSphere b) : ∃ w s r w' s' p gj, Maps b (exCfg false 0) 2 w s (fun j => if j = 0 then exW else 0) 0 ∧
    b.synthesis j_max (exCfg false 0) w s = .ok r ∧ b.analysis j_max (exCfg false 0) r = .ok (w', s') ∧ listGet w' 2 = .ok p ∧
    Samples3 gj ((exCfg false 0).Nj b.mr 2) (fun _ _ _ => 0) p := by
  obtain ⟨w, s, hm⟩ := maps_exist (exCfg_valid false 0) (exSphere_ok b false) (fun j => if j = 0 then exW else 0) 0
  obtain ⟨r, w', s', h1, h2, h3, -⟩ := C95_apart hb (exCfg_valid false 0) (exSphere_ok b false) (by simp [exCfg]) hm (i := 0)
    (fun j n l m h => by rw [if_neg h]; rfl) (fun l m => rfl)
  obtain ⟨p, gj, a1, -, a3⟩ := h3 2 (by norm_num [exCfg]) (by norm_num) (by norm_num)
  exact ⟨w, s, r, w', s', p, gj, hm, h1, h2, a1, a3⟩

end S2wav
