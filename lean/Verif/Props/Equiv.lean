import Verif.Props.Harmonic

/-! # Relations between the routines: C02, C16, C21, C22, C23, C26, C41, C45, C46 -/

namespace S2wav
open Classical

theorem foldlM_count {α σ : Type} {body : σ → α → Py σ} (f : σ → ℕ) (δ : ℕ)
    (hb : ∀ s i s', body s i = .ok s' → f s' = f s + δ) : ∀ (l : List α) {s s' : σ}, l.foldlM body s = .ok s' →
    f s' = f s + δ * l.length
  | [], s, s', h => by cases h; simp
  | i :: l, s, s', h => by
    rw [List.foldlM_cons] at h
    obtain ⟨t, ht, h⟩ := Py.bind_eq_ok.1 h
    rw [foldlM_count f δ hb l h, hb _ _ _ ht, List.length_cons]; ring

theorem listSet_length {β : Type} {l l' : List β} {i : ℤ} {x : β} (h : listSet l i x = .ok l') : l'.length = l.length := by
  unfold listSet at h
  split_ifs at h <;> cases h <;> simp

section
variable {jm : JMax} {L N J_min J : ℤ} {lam : ℝ} {spin spin0 : ℤ} {sampling : String} {nside : Option ℤ} {reality mr : Bool}

/-- **C46** (part) precomputes are generated when not given -/
theorem jax_analysis_none {K : Type} (E : JaxFFT K) (f : Px) (flt : Option (Arr3 ℂ × Arr1 ℝ)) :
    Jax.analysis jm E f L N J_min lam spin sampling nside reality flt none =
      (Construct.generate_wigner_precomputes jm E L N J_min lam sampling nside false reality >>= fun p =>
        Jax.analysis jm E f L N J_min lam spin sampling nside reality flt (some p)) := rfl

/-- **C02** every list of wavelet arrays has `n_wav_scales` entries: the lists made by all constructors and the lists
returned by all six analysis routines, whatever the signal, the filters, the precomputes and s2fft. -/
theorem C02_lengths (hJ : jm L lam = .ok J) (hJm : J_min ≤ J + 1) :
    ∃ n, n_wav_scales jm L N J_min lam = .ok n ∧
      ((∀ E l, construct_f jm E L N J_min lam sampling nside mr = .ok l → (l.length : ℤ) = n) ∧
      (∃ l, construct_f_jax jm L J_min none lam = .ok l ∧ (l.length : ℤ) = n) ∧
      (∃ l, construct_f_torch jm L J_min none lam = .ok l ∧ (l.length : ℤ) = n) ∧
      (∀ l, construct_flmn jm L N J_min lam mr = .ok l → (l.length : ℤ) = n) ∧
      (∀ l, construct_flmn_jax jm L N J_min none lam mr = .ok l → (l.length : ℤ) = n) ∧
      (∀ l, construct_flmn_torch jm L N J_min none lam mr = .ok l → (l.length : ℤ) = n)) ∧
      (∀ E f sc w s, Base.analysis jm E f L N J_min lam spin spin0 sampling nside reality mr sc = .ok (w, s) →
        (w.length : ℤ) = n) ∧
      (∀ E f w s, Base.analysis_looped jm E f L N J_min lam spin spin0 sampling nside reality mr = .ok (w, s) →
        (w.length : ℤ) = n) ∧
      (∀ (K : Type) (E : JaxFFT K) f flt pcs w s,
        Jax.analysis jm E f L N J_min lam spin sampling nside reality flt pcs = .ok (w, s) → (w.length : ℤ) = n) ∧
      (∀ E f flt w s, C.analysis jm E f L N J_min lam spin sampling reality flt = .ok (w, s) → (w.length : ℤ) = n) ∧
      (∀ (KW KS : Type) (E : PreFFT KW KS) f flt pcs w s,
        Pre.analysis jm E f L N J_min lam spin sampling nside reality flt pcs = .ok (w, s) → (w.length : ℤ) = n) ∧
      (∀ (KW KS : Type) (E : PreFFT KW KS) f flt pcs w s,
        Torch.analysis jm E f L N J_min lam spin sampling nside reality flt pcs = .ok (w, s) → (w.length : ℤ) = n) := by
  have hlen : ((J + 1 - J_min).toNat : ℤ) = J - J_min + 1 := by omega
  have hcf : ∀ E nside mr l, construct_f jm E L N J_min lam sampling nside mr = .ok l → l.length = (J + 1 - J_min).toNat := by
    intro E nside mr l hl
    simp only [construct_f, hJ, Py.bind_ok] at hl
    rw [mapM_length hl, length_pyRange]
  refine ⟨J - J_min + 1, by simp [n_wav_scales, hJ], ⟨fun E l hl => by rw [hcf _ _ _ _ hl, hlen], ?_, ?_, ?_, ?_, ?_⟩,
    ?_, ?_, ?_, ?_, ?_, ?_⟩
  · exact ⟨_, by simp only [construct_f_jax, hJ, Py.bind_ok]; rfl, by
      rw [List.length_map, length_pyRange, hlen]⟩
  · exact ⟨_, by simp only [construct_f_torch, hJ, Py.bind_ok]; rfl, by
      rw [List.length_map, length_pyRange, hlen]⟩
  · intro l hl
    simp only [construct_flmn, hJ, Py.bind_ok] at hl
    rw [mapM_length hl, length_pyRange, hlen]
  · intro l hl
    simp only [construct_flmn_jax, hJ, Py.bind_ok] at hl
    rw [mapM_length hl, length_pyRange, hlen]
  · intro l hl
    simp only [construct_flmn_torch, hJ, Py.bind_ok] at hl
    rw [mapM_length hl, length_pyRange, hlen]
  · intro E f sc w s h
    unfold Base.analysis at h
    simp only [hJ, Py.bind_ok] at h
    obtain ⟨_, -, h⟩ := Py.bind_eq_ok.1 h
    obtain ⟨_, -, h⟩ := Py.bind_eq_ok.1 h
    obtain ⟨fw, hfw, h⟩ := Py.bind_eq_ok.1 h
    obtain ⟨_, -, h⟩ := Py.bind_eq_ok.1 h
    obtain ⟨_, -, h⟩ := Py.bind_eq_ok.1 h
    obtain ⟨_, -, h⟩ := Py.bind_eq_ok.1 h
    obtain ⟨st, hst, h⟩ := Py.bind_eq_ok.1 h
    obtain ⟨_, -, h⟩ := Py.bind_eq_ok.1 h
    obtain ⟨_, -, h⟩ := Py.bind_eq_ok.1 h
    obtain ⟨_, -, h⟩ := Py.bind_eq_ok.1 h
    cases h
    rw [foldlM_count (fun s => s.2.length) 0 ?_ _ hst, ← hlen, zero_mul, add_zero, hcf _ _ _ _ hfw]
    rintro ⟨x, y⟩ j ⟨x', y'⟩ hb
    obtain ⟨_, -, hb⟩ := Py.bind_eq_ok.1 hb
    obtain ⟨_, -, hb⟩ := Py.bind_eq_ok.1 hb
    obtain ⟨_, -, hb⟩ := Py.bind_eq_ok.1 hb
    obtain ⟨_, -, hb⟩ := Py.bind_eq_ok.1 hb
    obtain ⟨_, -, hb⟩ := Py.bind_eq_ok.1 hb
    obtain ⟨_, -, hb⟩ := Py.bind_eq_ok.1 hb
    obtain ⟨_, -, hb⟩ := Py.bind_eq_ok.1 hb
    obtain ⟨z, hz, hb⟩ := Py.bind_eq_ok.1 hb
    have hz' := listSet_length hz
    split_ifs at hb
    · obtain ⟨_, -, hb⟩ := Py.bind_eq_ok.1 hb
      obtain ⟨_, hu, hb⟩ := Py.bind_eq_ok.1 hb
      cases hb
      exact (listSet_length hu).trans hz'
    · cases hb; exact hz'
  · intro E f w s h
    unfold Base.analysis_looped at h
    simp only [hJ, Py.bind_ok] at h
    obtain ⟨_, -, h⟩ := Py.bind_eq_ok.1 h
    obtain ⟨_, -, h⟩ := Py.bind_eq_ok.1 h
    obtain ⟨_, -, h⟩ := Py.bind_eq_ok.1 h
    obtain ⟨_, -, h⟩ := Py.bind_eq_ok.1 h
    obtain ⟨_, -, h⟩ := Py.bind_eq_ok.1 h
    obtain ⟨_, -, h⟩ := Py.bind_eq_ok.1 h
    obtain ⟨fw, hfw, h⟩ := Py.bind_eq_ok.1 h
    obtain ⟨st, hst, h⟩ := Py.bind_eq_ok.1 h
    obtain ⟨_, -, h⟩ := Py.bind_eq_ok.1 h
    cases h
    rw [foldlM_count (fun s => s.length) 0 ?_ _ hst, ← hlen, zero_mul, add_zero, hcf _ _ _ _ hfw]
    intro x j x' hb
    obtain ⟨_, -, hb⟩ := Py.bind_eq_ok.1 hb
    obtain ⟨_, -, hb⟩ := Py.bind_eq_ok.1 hb
    exact listSet_length hb
  · intro K E f flt pcs w s h
    obtain ⟨pcs, h⟩ : ∃ p, Jax.analysis jm E f L N J_min lam spin sampling nside reality flt (some p) = .ok (w, s) := by
      rcases pcs with _ | pcs
      · rw [jax_analysis_none] at h
        obtain ⟨p, -, h⟩ := Py.bind_eq_ok.1 h
        exact ⟨p, h⟩
      · exact ⟨pcs, h⟩
    unfold Jax.analysis at h
    simp only [hJ, Py.bind_ok] at h
    obtain ⟨_, -, h⟩ := Py.bind_eq_ok.1 h
    obtain ⟨_, -, h⟩ := Py.bind_eq_ok.1 h
    obtain ⟨_, -, h⟩ := Py.bind_eq_ok.1 h
    obtain ⟨_, -, h⟩ := Py.bind_eq_ok.1 h
    obtain ⟨st, hst, h⟩ := Py.bind_eq_ok.1 h
    obtain ⟨_, -, h⟩ := Py.bind_eq_ok.1 h
    obtain ⟨_, -, h⟩ := Py.bind_eq_ok.1 h
    obtain ⟨_, -, h⟩ := Py.bind_eq_ok.1 h
    have hw : w = st.2 := by
      split_ifs at h
      · cases h; rfl
      · obtain ⟨_, -, h⟩ := Py.bind_eq_ok.1 h
        cases h; rfl
    rw [hw, foldlM_count (fun s => s.2.length) 1 ?_ _ hst, ← hlen, length_pyRange]
    · simp
    rintro ⟨x, y⟩ j ⟨x', y'⟩ hb
    obtain ⟨_, -, hb⟩ := Py.bind_eq_ok.1 hb
    obtain ⟨_, -, hb⟩ := Py.bind_eq_ok.1 hb
    obtain ⟨_, -, hb⟩ := Py.bind_eq_ok.1 hb
    obtain ⟨_, -, hb⟩ := Py.bind_eq_ok.1 hb
    obtain ⟨_, -, hb⟩ := Py.bind_eq_ok.1 hb
    obtain ⟨_, -, hb⟩ := Py.bind_eq_ok.1 hb
    obtain ⟨_, -, hb⟩ := Py.bind_eq_ok.1 hb
    cases hb
    simp
  · intro E f flt w s h
    unfold C.analysis at h
    split_ifs at h
    obtain ⟨_, -, h⟩ := Py.bind_eq_ok.1 h
    simp only [hJ, Py.bind_ok] at h
    obtain ⟨_, -, h⟩ := Py.bind_eq_ok.1 h
    obtain ⟨_, -, h⟩ := Py.bind_eq_ok.1 h
    obtain ⟨_, -, h⟩ := Py.bind_eq_ok.1 h
    obtain ⟨_, -, h⟩ := Py.bind_eq_ok.1 h
    obtain ⟨x, hx, h⟩ := Py.bind_eq_ok.1 h
    have hw : w = x := by
      split_ifs at h
      · cases h; rfl
      · obtain ⟨_, -, h⟩ := Py.bind_eq_ok.1 h
        cases h; rfl
    rw [hw, mapM_length hx, length_pyRange, hlen]
  · intro KW KS E f flt pcs w s h
    unfold Pre.analysis at h
    rcases pcs with _ | pcs
    · cases h
    simp only [hJ, Py.bind_ok] at h
    obtain ⟨_, -, h⟩ := Py.bind_eq_ok.1 h
    obtain ⟨_, -, h⟩ := Py.bind_eq_ok.1 h
    obtain ⟨_, -, h⟩ := Py.bind_eq_ok.1 h
    obtain ⟨_, -, h⟩ := Py.bind_eq_ok.1 h
    obtain ⟨_, -, h⟩ := Py.bind_eq_ok.1 h
    obtain ⟨st, hst, h⟩ := Py.bind_eq_ok.1 h
    obtain ⟨_, -, h⟩ := Py.bind_eq_ok.1 h
    obtain ⟨_, -, h⟩ := Py.bind_eq_ok.1 h
    obtain ⟨_, -, h⟩ := Py.bind_eq_ok.1 h
    have hw : w = st.2 := by
      split_ifs at h
      · cases h; rfl
      · obtain ⟨_, -, h⟩ := Py.bind_eq_ok.1 h
        obtain ⟨_, -, h⟩ := Py.bind_eq_ok.1 h
        cases h; rfl
    rw [hw, foldlM_count (fun s => s.2.length) 1 ?_ _ hst, ← hlen, length_pyRange]
    · simp
    rintro ⟨x, y⟩ j ⟨x', y'⟩ hb
    obtain ⟨_, -, hb⟩ := Py.bind_eq_ok.1 hb
    obtain ⟨_, -, hb⟩ := Py.bind_eq_ok.1 hb
    obtain ⟨_, -, hb⟩ := Py.bind_eq_ok.1 hb
    obtain ⟨_, -, hb⟩ := Py.bind_eq_ok.1 hb
    obtain ⟨_, -, hb⟩ := Py.bind_eq_ok.1 hb
    obtain ⟨_, -, hb⟩ := Py.bind_eq_ok.1 hb
    obtain ⟨_, -, hb⟩ := Py.bind_eq_ok.1 hb
    cases hb
    simp
  · intro KW KS E f flt pcs w s h
    unfold Torch.analysis at h
    rcases pcs with _ | pcs
    · cases h
    simp only [hJ, Py.bind_ok] at h
    obtain ⟨_, -, h⟩ := Py.bind_eq_ok.1 h
    obtain ⟨fw, hfw, h⟩ := Py.bind_eq_ok.1 h
    obtain ⟨_, -, h⟩ := Py.bind_eq_ok.1 h
    obtain ⟨_, -, h⟩ := Py.bind_eq_ok.1 h
    obtain ⟨_, -, h⟩ := Py.bind_eq_ok.1 h
    obtain ⟨_, -, h⟩ := Py.bind_eq_ok.1 h
    obtain ⟨st, hst, h⟩ := Py.bind_eq_ok.1 h
    obtain ⟨_, -, h⟩ := Py.bind_eq_ok.1 h
    obtain ⟨_, -, h⟩ := Py.bind_eq_ok.1 h
    obtain ⟨_, -, h⟩ := Py.bind_eq_ok.1 h
    have hw : w = st.2 := by
      split_ifs at h
      · cases h; rfl
      · obtain ⟨_, -, h⟩ := Py.bind_eq_ok.1 h
        obtain ⟨_, -, h⟩ := Py.bind_eq_ok.1 h
        cases h; rfl
    have hl : fw.length = (J + 1 - J_min).toNat := by
      simp only [construct_f_torch, Py.bind_ok] at hfw
      cases hfw
      rw [List.length_map, length_pyRange]
    rw [hw, foldlM_count (fun s => s.2.length) 0 ?_ _ hst, ← hlen, zero_mul, add_zero, List.length_map, hl]
    rintro ⟨x, y⟩ j ⟨x', y'⟩ hb
    obtain ⟨_, -, hb⟩ := Py.bind_eq_ok.1 hb
    obtain ⟨_, -, hb⟩ := Py.bind_eq_ok.1 hb
    obtain ⟨_, -, hb⟩ := Py.bind_eq_ok.1 hb
    obtain ⟨_, -, hb⟩ := Py.bind_eq_ok.1 hb
    obtain ⟨_, -, hb⟩ := Py.bind_eq_ok.1 hb
    obtain ⟨_, -, hb⟩ := Py.bind_eq_ok.1 hb
    obtain ⟨_, -, hb⟩ := Py.bind_eq_ok.1 hb
    obtain ⟨_, -, hb⟩ := Py.bind_eq_ok.1 hb
    obtain ⟨z, hz, hb⟩ := Py.bind_eq_ok.1 hb
    cases hb
    simpa using listSet_length hz

/-- `L = 3`, `lam = 2`, `J_min = 0`: three scales, in a run of each routine -/
example (b : Backend) (hb : Toy.IsToy b) : ∃ f w s, b.analysis j_max (exCfg true 0) f = .ok (w, s) ∧ w.length = 3 := by
  obtain ⟨f, w, s, W, S, -, h, hc⟩ := exRun hb true
  have := hc.len
  exact ⟨f, w, s, h, by have e : (exCfg true 0).J_min = 0 := rfl; omega⟩

/-- **C16** (transforms) `base.analysis` and `base.synthesis` cannot be used with `spin0 ≠ 0`: they never return, and raise
`ValueError` as soon as the steps before the construction of the filters succeed. -/
theorem C16_transforms (hs : spin0 ≠ 0) (E : BaseFFT) :
    (∀ f sc r, Base.analysis jm E f L N J_min lam spin spin0 sampling nside reality mr sc ≠ .ok r) ∧
    (∀ w s r, Base.synthesis jm E w s L N J_min lam spin spin0 sampling nside reality mr ≠ .ok r) ∧
    (1 ≤ L → 1 ≤ N → 1 < lam → jm L lam = .ok J →
      ∀ al, construct_f jm E.toShapes L N J_min lam sampling (some (if mr then 1 else 0)) false = .ok al →
      ∀ f sc, Base.analysis jm E f L N J_min lam spin spin0 sampling nside reality mr sc = .error .valueError) ∧
    (1 ≤ L → jm L lam = .ok J → ∀ w s slm,
      wavelet_shape_check jm E.toShapes w s L N J_min lam sampling nside mr = .ok () →
      E.sphForward s (scal_bandlimit L J_min lam mr) spin sampling nside reality = .ok slm →
      Base.synthesis jm E w s L N J_min lam spin spin0 sampling nside reality mr = .error .valueError) := by
  have he := (filters_directional_spin0_err jm L N J_min lam spin hs).1
  refine ⟨fun f sc r h => ?_, fun w s r h => ?_, fun hL hN hlam hJ al hal f sc => ?_, fun hL hJ w s slm h1 h2 => ?_⟩
  · unfold Base.analysis at h
    obtain ⟨_, -, h⟩ := Py.bind_eq_ok.1 h
    obtain ⟨_, -, h⟩ := Py.bind_eq_ok.1 h
    obtain ⟨_, -, h⟩ := Py.bind_eq_ok.1 h
    obtain ⟨_, -, h⟩ := Py.bind_eq_ok.1 h
    rw [he] at h
    cases h
  · unfold Base.synthesis at h
    obtain ⟨_, -, h⟩ := Py.bind_eq_ok.1 h
    obtain ⟨_, -, h⟩ := Py.bind_eq_ok.1 h
    obtain ⟨_, -, h⟩ := Py.bind_eq_ok.1 h
    obtain ⟨_, -, h⟩ := Py.bind_eq_ok.1 h
    rw [he] at h
    cases h
  · unfold Base.analysis
    simp only [hJ, Py.bind_ok, construct_flm_ok hL hlam, construct_flmn_ok hL hN hlam hJ, hal, he, Py.bind_error]
  · have hz : zeros2 (α := ℂ) L (2 * L - 1) = .ok (Arr2.of L (2 * L - 1) fun _ _ => 0) := by
      unfold zeros2; rw [if_neg (by omega)]
    unfold Base.synthesis
    simp only [h1, hJ, Py.bind_ok, hz, h2, he, Py.bind_error]

example (f : Px) : Base.analysis j_max Toy.base f 3 2 0 2 0 1 "mw" none false true false = .error .valueError := by
  obtain ⟨al, hal⟩ := (exCfg_good (b := .base Toy.base true) (Or.inl ⟨true, rfl⟩) false 0).ready
  exact (C16_transforms (L := 3) (N := 2) (lam := 2) (by norm_num) Toy.base).2.2.1 (by norm_num) (by norm_num) (by norm_num) j_max_3_2 al hal f false

/-- **C46** the JAX routines generate the documented precomputes when none are given. -/
theorem C46_precomps {K : Type} (E : JaxFFT K) (f : Px) (flt : Option (Arr3 ℂ × Arr1 ℝ)) :
    Jax.analysis jm E f L N J_min lam spin sampling nside reality flt none =
      (Construct.generate_wigner_precomputes jm E L N J_min lam sampling nside false reality >>= fun p =>
        Jax.analysis jm E f L N J_min lam spin sampling nside reality flt (some p)) ∧
    (∀ w s, Jax.synthesis jm E w s L N J_min lam spin sampling nside reality flt none =
      (Construct.generate_wigner_precomputes jm E L N J_min lam sampling nside true reality >>= fun p =>
        Jax.synthesis jm E w s L N J_min lam spin sampling nside reality flt (some p))) ∧
    (∀ flm J_max wav, Jax.flm_to_analysis jm E flm L N J_min J_max lam sampling nside reality wav none =
      (Construct.generate_wigner_precomputes jm E L N J_min lam sampling nside false reality >>= fun p =>
        Jax.flm_to_analysis jm E flm L N J_min J_max lam sampling nside reality wav (some p))) :=
  ⟨rfl, fun _ _ => rfl, fun _ _ _ => rfl⟩

end

section
variable {jm : JMax} {c : Cfg} {J : ℤ} {E : BaseFFT} {mr : Bool}

theorem wavCoeffs_congr {Lj Nj : ℤ} {psi psi' : ℤ → ℤ → ℂ} {flm : Arr2 ℂ} (h : ∀ l n, psi l n = psi' l n) :
    wavCoeffs Lj Nj psi flm = wavCoeffs Lj Nj psi' flm := by
  rw [show psi = psi' from funext fun l => funext fun n => h l n]

/-- **C21** the vectorised and the looped NumPy analysis are the same function, when `k_lam` does not overshoot. -/
theorem C21_base_eq_looped (hv : c.Valid jm J) (hR : (Backend.base E mr).Ready jm c) (hR' : (Backend.looped E mr).Ready jm c)
    (hE : (baseEngine E c).Std c.reality) {k : Arr2 ℝ} (hk : k_lam jm c.L c.lam 300 = .ok k) (hno : NoOvershoot k) (f : Px) :
    Base.analysis jm E f c.L c.N c.J_min c.lam c.spin 0 c.sampling c.nside c.reality mr false =
      Base.analysis_looped jm E f c.L c.N c.J_min c.lam c.spin 0 c.sampling c.nside c.reality mr := by
  obtain ⟨psi, phi, hflt⟩ := filters_exist hv (.base E mr)
  obtain ⟨psi', phi', hflt'⟩ := filters_exist hv (.looped E mr)
  obtain ⟨e1, e2, -⟩ := dir_looped_eq_vectorised hv.top hv.hN hk hno hflt' hflt
  refine ((Backend.base E mr).analysis_formula hv hR hE hflt f).trans
    (Eq.trans ?_ ((Backend.looped E mr).analysis_formula hv hR' hE hflt' f).symm)
  refine congrArg _ (funext fun flm => ?_)
  rw [e1]
  refine congrArg₂ _ (mapM_congr' fun j hj => ?_) rfl
  rw [mem_pyRange] at hj
  rw [wavCoeffs_congr fun l n => (e2 j l (c.L - 1 + n) hj.1).symm]
  rfl

/-- **C22** the vectorised and the looped NumPy synthesis are the same function. -/
theorem C22_base_eq_looped (hv : c.Valid jm J) (hR : (Backend.base E mr).Ready jm c) (hR' : (Backend.looped E mr).Ready jm c)
    (hE : (baseEngine E c).Std c.reality) (hN : c.reality = true → (baseEngine E c).NonnegOnly)
    {k : Arr2 ℝ} (hk : k_lam jm c.L c.lam 300 = .ok k) (hno : NoOvershoot k) (w : List Px) (s : Px) :
    Base.synthesis jm E w s c.L c.N c.J_min c.lam c.spin 0 c.sampling c.nside c.reality mr =
      Base.synthesis_looped jm E w s c.L c.N c.J_min c.lam c.spin 0 c.sampling c.nside c.reality mr := by
  obtain ⟨psi, phi, hflt⟩ := filters_exist hv (.base E mr)
  obtain ⟨psi', phi', hflt'⟩ := filters_exist hv (.looped E mr)
  obtain ⟨e1, e2, -⟩ := dir_looped_eq_vectorised hv.top hv.hN hk hno hflt' hflt
  refine ((Backend.base E mr).synthesis_formula hv hR hE (fun h => by cases h) hflt w s).trans
    (Eq.trans ?_ ((Backend.looped E mr).synthesis_formula hv hR' hE (fun _ => hN) hflt' w s).symm)
  refine congrArg _ (funext fun _ => ?_)
  refine congrArg _ (funext fun S => ?_)
  refine congrArg _ (funext fun W => ?_)
  rw [e1]
  refine congrArg (fun a => E.sphInverse a c.L c.spin c.sampling c.nside c.reality 0) ?_
  unfold synCoeffs
  refine Arr2.of_congr fun l i _ _ _ _ => ?_
  congr 1
  refine Finset.sum_congr rfl fun j hj => Finset.sum_congr rfl fun n _ => ?_
  rw [Finset.mem_Icc] at hj
  beta_reduce
  rw [e2 j l _ hj.1]

/-- one signal with its two (equal) analyses -/
example (reality mr : Bool) (f : Px) (w : List Px) (s : Px) :
    Base.analysis j_max Toy.base f 3 2 0 2 0 0 "mw" none reality mr false =
      Base.analysis_looped j_max Toy.base f 3 2 0 2 0 0 "mw" none reality mr ∧
    Base.synthesis j_max Toy.base w s 3 2 0 2 0 0 "mw" none reality mr =
      Base.synthesis_looped j_max Toy.base w s 3 2 0 2 0 0 "mw" none reality mr := by
  obtain ⟨k, hk, hno⟩ := noOvershoot_3_2
  have hg := exCfg_good (b := .base Toy.base mr) (Or.inl ⟨mr, rfl⟩) reality 0
  have hg' := exCfg_good (b := .looped Toy.base mr) (Or.inr (Or.inl ⟨mr, rfl⟩)) reality 0
  exact ⟨C21_base_eq_looped (exCfg_valid reality 0) hg.ready hg'.ready hg.std hk hno f,
    C22_base_eq_looped (exCfg_valid reality 0) hg.ready hg'.ready hg.std hg'.trip.2 hk hno w s⟩

/-- **C23** the `reality` flag does not change the result of analysing a real signal: `c` and `c'` differ in the flag only,
s2fft's real and complex transforms agree on `f` and on Hermitian coefficients. -/
theorem C23_reality {b : Backend} {c' : Cfg} (hc : c' = { c with reality := false }) (hr : c.reality = true)
    (hv : c.Valid jm J) (hR : b.Ready jm c) (hR' : b.Ready jm c') (hE : (b.engine c).Std true) (hE' : (b.engine c').Std false)
    {f : Px} {flm : Arr2 ℂ} (hf : (b.engine c).sphF f c.L = .ok flm) (hf' : (b.engine c').sphF f c.L = .ok flm)
    (hS : ∀ L a, BL2 L c.spin a → Herm2 a → (b.engine c).sphI a L = (b.engine c').sphI a L)
    (hW : ∀ L N L0 t, BL3 L N L0 t → Herm3 t → (b.engine c).wigI t L N L0 = (b.engine c').wigI t L N L0) :
    b.analysis jm c f = b.analysis jm c' f := by
  have hv' : c'.Valid jm J := by subst hc; exact ⟨hv.top, hv.hN, hv.hNL, hv.h0, hv.h1⟩
  have hr' : c'.reality = false := by subst hc; rfl
  obtain ⟨psi, phi, hflt⟩ := filters_exist hv b
  have hflt' : b.filters jm c' = .ok (psi, phi) := by
    subst hc; rw [← hflt]; unfold Backend.filters; cases b <;> rfl
  have hfs := hE.sph f c.L flm hf
  have hB := filters_built hflt
  rw [← hr] at hE
  rw [← hr'] at hE'
  rw [b.analysis_formula hv hR hE hflt, b.analysis_formula hv' hR' hE' hflt']
  have eL : c'.L = c.L := by subst hc; rfl
  have eJ : c'.J_min = c.J_min := by subst hc; rfl
  have e1 : ∀ j, c'.Lj b.mr j = c.Lj b.mr j := fun j => by subst hc; rfl
  have e2 : ∀ j, c'.Nj b.mr j = c.Nj b.mr j := fun j => by subst hc; rfl
  have e3 : ∀ j, c'.L0 b.mr j = c.L0 b.mr j := fun j => by subst hc; rfl
  have e4 : c'.Ls b.mr = c.Ls b.mr := by subst hc; rfl
  rw [eL, eJ, hf, hf', Py.bind_ok, Py.bind_ok]
  refine congrArg₂ _ (mapM_congr' fun j hj => ?_) (funext fun w => congrArg₂ _ ?_ rfl)
  · rw [e1, e2, e3]
    have := wavCoeffs_bl hv hB hfs.1 b.mr j
    exact hW _ _ _ _ this.1 (this.2 (hfs.2 rfl))
  · have := scalCoeffs_bl hv hB hfs.1 b.mr
    unfold Backend.scalI
    rw [e4, hS _ _ this.1 (this.2 (hfs.2 rfl))]

/-- on a coefficient array of a real signal, the real and the complex inverse of the example s2fft agree -/
theorem Toy.sphInv_real {a : Arr2 ℂ} (h : Herm2 a) (L : ℤ) : Toy.sphInv true a L = Toy.sphInv false a L := by
  unfold Toy.sphInv
  refine congrArg₂ Px.mk rfl (funext fun idx => ?_)
  split
  · rename_i l i
    unfold Toy.pixel
    simp only [if_true, Bool.false_eq_true, if_false]
    split_ifs with hm
    · rw [h l (i - (L - 1)), ← mul_assoc, Toy.neg_one_zpow_mul_self, one_mul, Complex.add_conj]
      push_cast; ring
    · have := h l (-(i - (L - 1)))
      rw [neg_neg, Toy.neg_one_zpow_neg] at this
      rw [this, ← mul_assoc, Toy.neg_one_zpow_mul_self, one_mul, Complex.sub_conj]
      field_simp
      push_cast; ring
  · rfl

example (b : Backend) (hb : Toy.IsToy b) : ∃ f : Px, (b.engine (exCfg true 0)).sphF f 3 = .ok exFlm ∧
    b.analysis j_max (exCfg true 0) f = b.analysis j_max (exCfg false 0) f := by
  have hw := exCfg_works hb true 0
  have hw' := exCfg_works hb false 0
  obtain ⟨f, hf1, hf⟩ := hw.exact.sph 3 exFlm (by norm_num) exFlm_bl (fun _ => exFlm_herm)
  obtain ⟨g, hg1, hg⟩ := hw'.exact.sph 3 exFlm (by norm_num) exFlm_bl (fun _ => exFlm_herm)
  have hS : ∀ L a, BL2 L 0 a → Herm2 a → (b.engine (exCfg true 0)).sphI a L = (b.engine (exCfg false 0)).sphI a L := by
    intro L a _ ha
    rcases hb with ⟨mr, rfl⟩ | ⟨mr, rfl⟩ | rfl | rfl | rfl | rfl
    case inr.inr.inr.inl =>
      obtain ⟨_, k, hk⟩ := hw.ready
      obtain ⟨_, k', hk'⟩ := hw'.ready
      simp only [Backend.engine, cEngine, hk, hk', Py.bind_ok]
      exact congrArg _ (Toy.sphInv_real ha L)
    all_goals exact congrArg _ (Toy.sphInv_real ha L)
  rw [hS 3 exFlm exFlm_bl exFlm_herm, hg1] at hf1
  cases hf1
  refine ⟨f, hf, C23_reality rfl rfl hw.valid hw.ready hw'.ready hw.std hw'.std hf hg hS fun L N L0 t _ _ => ?_⟩
  rcases hb with ⟨mr, rfl⟩ | ⟨mr, rfl⟩ | rfl | rfl | rfl | rfl <;> rfl

/-- two s2fft interfaces compute the same transforms.  The Wigner forward transforms need only agree on the degrees from
`L_lower` on (the precompute transforms have no `L_lower`). -/
structure Engine.Agree (e e' : Engine) (spin : ℤ) : Prop where
  sphF : ∀ f L, e.sphF f L = e'.sphF f L
  sphI : ∀ L a, BL2 L spin a → e.sphI a L = e'.sphI a L
  wigI : ∀ L N L0 t, BL3 L N L0 t → e.wigI t L N L0 = e'.wigI t L N L0
  wigF : ∀ f L N L0, (∃ x, e.wigF f L N L0 = .error x ∧ e'.wigF f L N L0 = .error x) ∨
    ∃ t t', e.wigF f L N L0 = .ok t ∧ e'.wigF f L N L0 = .ok t' ∧ ∀ n l m, L0 ≤ l → co3 t n l m = co3 t' n l m

theorem mapM_rel {α β : Type} {m m' : α → Py β} {R : α → β → β → Prop} : ∀ {l : List α},
    (∀ i ∈ l, (∃ x, m i = .error x ∧ m' i = .error x) ∨ ∃ t t', m i = .ok t ∧ m' i = .ok t' ∧ R i t t') →
    (∃ x, l.mapM m = .error x ∧ l.mapM m' = .error x) ∨ ∃ r r', l.mapM m = .ok r ∧ l.mapM m' = .ok r'
  | [], _ => Or.inr ⟨[], [], rfl, rfl⟩
  | i :: l, h => by
    simp only [List.mapM_cons]
    rcases h i (by simp) with ⟨x, h1, h2⟩ | ⟨t, t', h1, h2, -⟩
    · exact Or.inl ⟨x, by rw [h1, Py.bind_error], by rw [h2, Py.bind_error]⟩
    · rw [h1, h2, Py.bind_ok, Py.bind_ok]
      rcases mapM_rel (l := l) fun i hi => h i (by simp [hi]) with ⟨x, h3, h4⟩ | ⟨r, r', h3, h4⟩
      · exact Or.inl ⟨x, by rw [h3, Py.bind_error], by rw [h4, Py.bind_error]⟩
      · exact Or.inr ⟨_, _, by rw [h3, Py.bind_ok]; rfl, by rw [h4, Py.bind_ok]; rfl⟩

theorem psi_zero_L0 {psi : Arr3 ℂ} {phi : Arr1 ℝ} (hv : c.Valid jm J) (hB : DirBuilt jm c.L c.N c.J_min c.lam c.spin 0 psi phi)
    (mr : Bool) {j l n : ℤ} (h : ¬ c.L0 mr j ≤ l) : psi.v j l (c.L - 1 + n) = 0 := by
  by_contra hc
  exact h ((dir_fltTrunc hv.top hv.hN hB mr).psi j l n hc).1

/-- **C26** all routines compute the same coefficients: any two of the six backends at the same resolution with the same
filters and agreeing s2fft transforms return the same wavelet maps, and the same scaling map unless the special case `Ls = 1`
of the JAX, C and precompute routines applies to one of them only. -/
theorem C26_analysis {b b' : Backend} (hv : c.Valid jm J) (hR : b.Ready jm c) (hR' : b'.Ready jm c)
    (hE : (b.engine c).Std c.reality) (hE' : (b'.engine c).Std c.reality) (hmr : b.mr = b'.mr)
    (hfl : b.filters jm c = b'.filters jm c) (hA : (b.engine c).Agree (b'.engine c) c.spin) (f : Px) :
    ((b.isBase = b'.isBase ∨ c.Ls b.mr ≠ 1) → b.analysis jm c f = b'.analysis jm c f) ∧
    ∀ w s w' s', b.analysis jm c f = .ok (w, s) → b'.analysis jm c f = .ok (w', s') → w = w' := by
  obtain ⟨psi, phi, hflt⟩ := filters_exist hv b
  have hflt' := hflt
  rw [hfl] at hflt'
  have hB := filters_built hflt
  rw [b.analysis_formula hv hR hE hflt, b'.analysis_formula hv hR' hE' hflt', ← hmr, ← hA.sphF]
  have hw : ∀ flm, (b.engine c).sphF f c.L = .ok flm → (pyRange c.J_min (J + 1)).mapM (fun j =>
      (b.engine c).wigI (wavCoeffs (c.Lj b.mr j) (c.Nj b.mr j) (fun l n => psi.v j l (c.L - 1 + n)) flm)
        (c.Lj b.mr j) (c.Nj b.mr j) (c.L0 b.mr j)) = (pyRange c.J_min (J + 1)).mapM (fun j =>
      (b'.engine c).wigI (wavCoeffs (c.Lj b.mr j) (c.Nj b.mr j) (fun l n => psi.v j l (c.L - 1 + n)) flm)
        (c.Lj b.mr j) (c.Nj b.mr j) (c.L0 b.mr j)) := by
    intro flm hf
    exact mapM_congr' fun j _ => hA.wigI _ _ _ _ (wavCoeffs_bl hv hB (hE.sph f c.L flm hf).1 b.mr j).1
  constructor
  · intro hs
    refine Py.bind_congr fun flm hf => ?_
    rw [hw flm hf]
    refine congrArg _ (funext fun w => congrArg₂ _ ?_ rfl)
    unfold Backend.scalI
    rw [← hmr, hA.sphI _ _ (scalCoeffs_bl hv hB (hE.sph f c.L flm hf).1 b.mr).1]
    rcases hs with hs | hs
    · rw [hs]
    · rw [if_neg (fun h => hs h.2), if_neg (fun h => hs h.2)]
  · intro w s w' s' h h'
    obtain ⟨flm, hf, h⟩ := Py.bind_eq_ok.1 h
    rw [hf, Py.bind_ok] at h'
    obtain ⟨w1, h1, h⟩ := Py.bind_eq_ok.1 h
    rw [← hw flm hf, h1, Py.bind_ok] at h'
    obtain ⟨_, -, h⟩ := Py.bind_eq_ok.1 h
    obtain ⟨_, -, h'⟩ := Py.bind_eq_ok.1 h'
    cases h; cases h'; rfl

/-- **C26** (synthesis) two backends at the same resolution with the same filters and agreeing s2fft transforms synthesise the
same signal from the same coefficients, once their checks pass and the scaling image is real if `reality` (the C synthesis
drops its imaginary part). -/
theorem C26_synthesis {b b' : Backend} (hv : c.Valid jm J) (hR : b.Ready jm c) (hR' : b'.Ready jm c)
    (hE : (b.engine c).Std c.reality) (hE' : (b'.engine c).Std c.reality) (hmr : b.mr = b'.mr)
    (hN : b.isLooped = true → c.reality = true → (b.engine c).NonnegOnly)
    (hN' : b'.isLooped = true → c.reality = true → (b'.engine c).NonnegOnly)
    (hfl : b.filters jm c = b'.filters jm c) (hA : (b.engine c).Agree (b'.engine c) c.spin) {w : List Px} {s : Px}
    (hck : b.check jm c w s = .ok ()) (hck' : b'.check jm c w s = .ok ()) (hs : c.reality = true → s.re = s) :
    b.synthesis jm c w s = b'.synthesis jm c w s := by
  obtain ⟨psi, phi, hflt⟩ := filters_exist hv b
  have hflt' := hflt
  rw [hfl] at hflt'
  have hB := filters_built hflt
  have hfs : ∀ b : Backend, b.fscal c s = s := by
    intro b
    unfold Backend.fscal
    cases b
    case ssht =>
      simp only
      split_ifs with h
      · exact hs h
      · rfl
    all_goals rfl
  rw [b.synthesis_formula hv hR hE hN hflt, b'.synthesis_formula hv hR' hE' hN' hflt', hck, hck', Py.bind_ok, Py.bind_ok,
    hfs, hfs, ← hmr, ← hA.sphF]
  refine Py.bind_congr fun S hS => ?_
  have hrel : ∀ j ∈ pyRange c.J_min (J + 1), (∃ x, (listGet w (j - c.J_min) >>= fun fw =>
        (b.engine c).wigF fw (c.Lj b.mr j) (c.Nj b.mr j) (c.L0 b.mr j)) = .error x ∧ (listGet w (j - c.J_min) >>= fun fw =>
        (b'.engine c).wigF fw (c.Lj b.mr j) (c.Nj b.mr j) (c.L0 b.mr j)) = .error x) ∨
      ∃ t t', (listGet w (j - c.J_min) >>= fun fw =>
        (b.engine c).wigF fw (c.Lj b.mr j) (c.Nj b.mr j) (c.L0 b.mr j)) = .ok t ∧ (listGet w (j - c.J_min) >>= fun fw =>
        (b'.engine c).wigF fw (c.Lj b.mr j) (c.Nj b.mr j) (c.L0 b.mr j)) = .ok t' ∧
        ∀ n l m, c.L0 b.mr j ≤ l → co3 t n l m = co3 t' n l m := by
    intro j _
    rcases listGet w (j - c.J_min) with e | p
    · exact Or.inl ⟨e, rfl, rfl⟩
    · exact hA.wigF p _ _ _
  rcases mapM_rel hrel with ⟨x, h1, h2⟩ | ⟨r, r', h1, h2⟩
  · rw [h1, h2]; rfl
  · rw [h1, h2, Py.bind_ok, Py.bind_ok]
    have hsyn : synCoeffs c.L c.J_min J (fun j l n => psi.v j l (c.L - 1 + n)) phi.v (nth z3 c.J_min r) S =
        synCoeffs c.L c.J_min J (fun j l n => psi.v j l (c.L - 1 + n)) phi.v (nth z3 c.J_min r') S := by
      unfold synCoeffs
      refine Arr2.of_congr fun l i hl0 _ _ _ => ?_
      congr 1
      refine Finset.sum_congr rfl fun j hj => Finset.sum_congr rfl fun n _ => ?_
      rw [Finset.mem_Icc] at hj
      beta_reduce
      by_cases h0 : c.L0 b.mr j ≤ l
      · obtain ⟨x, hx, hx'⟩ := mapM_get h1 hj.1 (show j < J + 1 by omega)
        obtain ⟨y, hy, hy'⟩ := mapM_get h2 hj.1 (show j < J + 1 by omega)

        rw [nth_eq hj.1 hx, nth_eq hj.1 hy]
        rcases hrel j (by rw [mem_pyRange]; omega) with ⟨e, h3, -⟩ | ⟨t, t', h3, h4, h5⟩
        · rw [h3] at hx'; cases hx'
        · rw [h3] at hx'; rw [h4] at hy'
          cases hx'; cases hy'
          rw [h5 n l _ h0]
      · rw [psi_zero_L0 hv hB b.mr h0, zero_mul, zero_mul]
    rw [hsyn]
    refine hA.sphI _ _ (synCoeffs_co (b := b) hv hflt (hE.sph _ _ _ hS).1 fun j hj0 hj1 => ?_).2
    obtain ⟨y, hy, hy'⟩ := mapM_get h2 hj0 (show j < J + 1 by omega)

    obtain ⟨p, -, hy'⟩ := Py.bind_eq_ok.1 hy'
    rw [nth_eq hj0 hy]
    exact hE'.wig _ _ _ _ _ hy'

/-- the example s2fft implementations agree -/
theorem Toy.agree {b b' : Backend} (hb : Toy.IsToy b) (hb' : Toy.IsToy b') {jm : JMax} {c : Cfg} (hR : b.Ready jm c)
    (hR' : b'.Ready jm c) : (b.engine c).Agree (b'.engine c) c.spin := by
  have key : ∀ b : Backend, Toy.IsToy b → b.Ready jm c → (∀ f L, (b.engine c).sphF f L = .ok (Toy.sphFwd c.reality f L)) ∧
      (∀ a L, (b.engine c).sphI a L = .ok (Toy.sphInv c.reality a L)) ∧
      (∀ t L N L0, (b.engine c).wigI t L N L0 = .ok (Toy.wigInv t L N)) ∧
      (∀ f L N L0, ∃ L0', (L0' = L0 ∨ L0' = 0) ∧ (b.engine c).wigF f L N L0 = .ok (Toy.wigFwd f L N L0')) := by
    intro b hb hR
    rcases hb with ⟨mr, rfl⟩ | ⟨mr, rfl⟩ | rfl | rfl | rfl | rfl
    case inr.inr.inr.inl =>
      obtain ⟨_, k, hk⟩ := hR
      refine ⟨fun f L => ?_, fun a L => ?_, fun _ _ _ _ => rfl, fun f L N L0 => ⟨L0, Or.inl rfl, rfl⟩⟩
      all_goals simp only [Backend.engine, cEngine, hk, Py.bind_ok]; rfl
    case inr.inr.inr.inr.inl => exact ⟨fun _ _ => rfl, fun _ _ => rfl, fun _ _ _ _ => rfl, fun _ _ _ _ => ⟨0, Or.inr rfl, rfl⟩⟩
    case inr.inr.inr.inr.inr => exact ⟨fun _ _ => rfl, fun _ _ => rfl, fun _ _ _ _ => rfl, fun _ _ _ _ => ⟨0, Or.inr rfl, rfl⟩⟩
    all_goals exact ⟨fun _ _ => rfl, fun _ _ => rfl, fun _ _ _ _ => rfl, fun _ _ _ L0 => ⟨L0, Or.inl rfl, rfl⟩⟩
  obtain ⟨a1, a2, a3, a4⟩ := key b hb hR
  obtain ⟨b1, b2, b3, b4⟩ := key b' hb' hR'
  refine ⟨fun f L => by rw [a1, b1], fun L a _ => by rw [a2, b2], fun L N L0 t _ => by rw [a3, b3], fun f L N L0 => Or.inr ?_⟩
  obtain ⟨k, hk, h⟩ := a4 f L N L0
  obtain ⟨k', hk', h'⟩ := b4 f L N L0
  refine ⟨_, _, h, h', fun n l m hl => ?_⟩
  rw [Toy.wigFwd_co, Toy.wigFwd_co]
  by_cases hc : 0 ≤ l ∧ l < L ∧ |n| < N ∧ |n| ≤ l ∧ |m| ≤ l
  · rw [if_pos (by omega), if_pos (by omega)]
  · rw [if_neg (by omega), if_neg (by omega)]

/-- all backends but the looped one, on every signal -/
example (b b' : Backend) (hb : Toy.IsToy b) (hb' : Toy.IsToy b') (hm : b.mr = true) (hm' : b'.mr = true)
    (hl : b.isLooped = false) (hl' : b'.isLooped = false) (f : Px) (w w' : List Px) (s s' : Px)
    (h : b.analysis j_max (exCfg true 0) f = .ok (w, s)) (h' : b'.analysis j_max (exCfg true 0) f = .ok (w', s')) : w = w' := by
  have hw := exCfg_works hb true 0
  have hw' := exCfg_works hb' true 0
  refine (C26_analysis hw.valid hw.ready hw'.ready hw.std hw'.std (hm.trans hm'.symm) ?_
    (Toy.agree hb hb' hw.ready hw'.ready) f).2 w s w' s' h h'
  cases b <;> cases b' <;> first | exact Bool.noConfusion (show true = false from hl) |
    exact Bool.noConfusion (show true = false from hl') | rfl

/-- **C41** `scattering=True` returns the modulus of the wavelet maps and the same scaling map. -/
theorem C41_scattering (hv : c.Valid jm J) (hR : (Backend.base E mr).Ready jm c) (hE : (baseEngine E c).Std c.reality) (f : Px) :
    Base.analysis jm E f c.L c.N c.J_min c.lam c.spin 0 c.sampling c.nside c.reality mr true =
      (Base.analysis jm E f c.L c.N c.J_min c.lam c.spin 0 c.sampling c.nside c.reality mr false >>= fun r =>
        .ok (r.1.map Px.abs, r.2)) ∧
    ∀ (p : Px) i, (p.abs.v i).im = 0 ∧ 0 ≤ (p.abs.v i).re ∧ ‖p.abs.v i‖ = ‖p.v i‖ := by
  constructor
  · obtain ⟨psi, phi, hflt⟩ := filters_exist hv (.base E mr)
    obtain ⟨al, hal⟩ := hR
    have hsh : ∀ flm, E.sphForward f c.L c.spin c.sampling c.nside c.reality = .ok flm → flm.r = c.L ∧ flm.c = 2 * c.L - 1 :=
      fun flm h => ⟨(hE.sph f c.L flm h).1.r, (hE.sph f c.L flm h).1.c⟩
    have hfit := fits_of_le hv.top.hL hv.hN hv.top.hlam hv.hNL c.J_min J mr psi
    rw [base_analysis_eq hv.top hv.hN hv.h0 hv.h1 E f c.spin c.sampling c.nside c.reality mr true hal hsh hfit hflt,
      base_analysis_eq hv.top hv.hN hv.h0 hv.h1 E f c.spin c.sampling c.nside c.reality mr false hal hsh hfit hflt]
    unfold specAna
    simp only [if_true, Bool.false_eq_true, if_false, Py.bind_pure]
    rcases E.sphForward f c.L c.spin c.sampling c.nside c.reality with e | flm
    · rfl
    simp only [Py.bind_ok]
    have hmap : ∀ (m : ℤ → Py Px) (l : List ℤ), l.mapM (fun j => m j >>= fun p => .ok p.abs) =
        (l.mapM m >>= fun w => .ok (w.map Px.abs)) := by
      intro m l
      induction l with
      | nil => rfl
      | cons i l ih =>
        rw [List.mapM_cons, List.mapM_cons, ih]
        rcases m i with e | p
        · rfl
        · rcases l.mapM m with e | w <;> rfl
    rw [hmap]
    rcases List.mapM _ _ with e | w
    · rfl
    simp only [Py.bind_ok]
    rcases E.sphInverse _ _ c.spin c.sampling c.nside c.reality 0 with e | s <;> rfl
  · intro p i
    unfold Px.abs
    simp

example (f : Px) : Base.analysis j_max Toy.base f 3 2 0 2 0 0 "mw" none true true true =
    (Base.analysis j_max Toy.base f 3 2 0 2 0 0 "mw" none true true false >>= fun r => .ok (r.1.map Px.abs, r.2)) := by
  have hg := exCfg_works (b := .base Toy.base true) (Or.inl ⟨true, rfl⟩) true 0
  exact (C41_scattering hg.valid hg.ready hg.std f).1

/-- **C45** the swapped argument of `base.analysis` (line 309) is harmless: the results do not depend on what the buffers are
allocated with, as long as the allocation succeeds. -/
theorem C45_buffers {E' : BaseFFT} (hv : c.Valid jm J) (hR : (Backend.base E mr).Ready jm c)
    (hR' : (Backend.base E' mr).Ready jm c) (hE : (baseEngine E c).Std c.reality)
    (h1 : E.sphForward = E'.sphForward) (h2 : E.sphInverse = E'.sphInverse) (h3 : E.wigForward = E'.wigForward)
    (h4 : E.wigInverse = E'.wigInverse) (f : Px) :
    Base.analysis jm E f c.L c.N c.J_min c.lam c.spin 0 c.sampling c.nside c.reality mr false =
      Base.analysis jm E' f c.L c.N c.J_min c.lam c.spin 0 c.sampling c.nside c.reality mr false := by
  obtain ⟨psi, phi, hflt⟩ := filters_exist hv (.base E mr)
  have he : (Backend.base E mr).engine c = (Backend.base E' mr).engine c := by
    unfold Backend.engine; dsimp only
    unfold baseEngine; rw [h1, h2, h3, h4]
  have := (Backend.base E mr).analysis_formula hv hR hE hflt f
  have h' := (Backend.base E' mr).analysis_formula hv hR' (show ((Backend.base E' mr).engine c).Std c.reality from he ▸ hE) (psi := psi) (phi := phi) hflt f
  refine this.trans (Eq.trans ?_ h'.symm)
  have hs : (Backend.base E mr).scalI c = (Backend.base E' mr).scalI c := by
    funext a; unfold Backend.scalI; rw [he]; rfl
  rw [he, hs]
  rfl

/-- buffers of a wrong shape (one pixel each) -/
example (f : Px) : Base.analysis j_max Toy.base f 3 2 0 2 0 0 "mw" none true true false =
    Base.analysis j_max { Toy.base with so3 := fun _ _ _ _ => .ok [1] } f 3 2 0 2 0 0 "mw" none true true false := by
  have hg := exCfg_works (b := .base Toy.base true) (Or.inl ⟨true, rfl⟩) true 0
  refine C45_buffers (E := Toy.base) (E' := { Toy.base with so3 := fun _ _ _ _ => .ok [1] }) (mr := true) hg.valid hg.ready ?_ hg.std rfl rfl rfl rfl f
  have hJ : j_max (exCfg true 0).L (exCfg true 0).lam = .ok 2 := hg.valid.top.hJ
  unfold Backend.Ready construct_f
  simp only [hJ, Py.bind_ok]
  exact mapM_all_ok fun j _ _ => ⟨⟨[1], fun _ => 0⟩, rfl⟩

end

end S2wav
