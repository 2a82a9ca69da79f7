import Verif.Lemmas.Run

/-! # A concrete s2fft

The contracts of `Usage.lean` are satisfiable: "pixels" are the coefficients in the basis of real spherical harmonics
(times `sqrt(1/4π)`), stored in arrays of the shapes of the `mw` sampling.  A real signal has real pixels, and its
transform only uses the orders `m ≥ 0`. -/

namespace S2wav.Toy
open Classical

/-- `Y_00` -/
noncomputable def kap : ℂ := ((Real.sqrt (1 / (4 * Real.pi)) : ℝ) : ℂ)

theorem kap_ne : kap ≠ 0 := by
  have : (0 : ℝ) < Real.sqrt (1 / (4 * Real.pi)) := Real.sqrt_pos.2 (by have := Real.pi_pos; positivity)
  unfold kap
  exact_mod_cast this.ne'

/-- one pixel: row `l`, column `m` -/
noncomputable def pixel (reality : Bool) (a : Arr2 ℂ) (l m : ℤ) : ℂ :=
  if reality then (if 0 ≤ m then kap * (((co2 a l m).re : ℝ) : ℂ) else kap * (((co2 a l (-m)).im : ℝ) : ℂ))
  else if 0 ≤ m then kap * ((co2 a l m + (-1) ^ m * co2 a l (-m)) / 2)
  else kap * ((co2 a l (-m) - (-1) ^ m * co2 a l m) / (2 * Complex.I))

noncomputable def sphInv (reality : Bool) (a : Arr2 ℂ) (L : ℤ) : Px :=
  ⟨[L, 2 * L - 1], fun idx => match idx with
    | [l, i] => pixel reality a l (i - (L - 1))
    | _ => 0⟩

/-- the pixel used by the forward transform -/
noncomputable def val (reality : Bool) (p : Px) (L l m : ℤ) : ℂ :=
  if reality then (((p.v [l, L - 1 + m]).re : ℝ) : ℂ) else p.v [l, L - 1 + m]

noncomputable def coef (reality : Bool) (p : Px) (L l m : ℤ) : ℂ :=
  if m = 0 then kap⁻¹ * val reality p L l 0
  else if 0 < m then kap⁻¹ * (val reality p L l m + Complex.I * val reality p L l (-m))
  else (-1) ^ m * (kap⁻¹ * (val reality p L l (-m) - Complex.I * val reality p L l m))

noncomputable def sphFwd (reality : Bool) (p : Px) (L : ℤ) : Arr2 ℂ :=
  Arr2.of L (2 * L - 1) fun l i => if l < |i - (L - 1)| then 0 else coef reality p L l (i - (L - 1))

noncomputable def wigInv (t : Arr3 ℂ) (L N : ℤ) : Px :=
  ⟨[2 * N - 1, L, 2 * L - 1], fun idx => match idx with
    | [k, l, i] => t.v k l i
    | _ => 0⟩

noncomputable def wigFwd (p : Px) (L N L0 : ℤ) : Arr3 ℂ :=
  Arr3.of (2 * N - 1) L (2 * L - 1) fun k l i =>
    if l < |k - (N - 1)| ∨ l < |i - (L - 1)| ∨ l < L0 then 0 else p.v [k, l, i]

noncomputable def shapes : Shapes where
  s2 L _ _ := .ok [L, 2 * L - 1]
  so3 L N _ _ := .ok [2 * N - 1, L, 2 * L - 1]

noncomputable def base : BaseFFT where
  toShapes := shapes
  sphForward f L _ _ _ reality := .ok (sphFwd reality f L)
  sphInverse a L _ _ _ reality _ := .ok (sphInv reality a L)
  wigForward f L N L0 _ _ _ := .ok (wigFwd f L N L0)
  wigInverse t L N _ _ _ _ := .ok (wigInv t L N)

noncomputable def jax : JaxFFT Unit where
  sphForward f L _ _ _ reality := .ok (sphFwd reality f L)
  sphInverse a L _ _ _ reality := .ok (sphInv reality a L)
  genWigner _ _ _ _ _ _ _ := .ok ()
  wigForward f L N _ _ _ _ L0 := .ok (wigFwd f L N L0)
  wigInverse t L N _ _ _ _ _ := .ok (wigInv t L N)

noncomputable def ssht : CFFT where
  sphForward f L _ reality _ := .ok (sphFwd reality f L)
  sphInverse a L _ reality _ := .ok (sphInv reality a L)
  wigForward f L N L0 _ _ := .ok (wigFwd f L N L0)
  wigInverse t L N _ _ _ := .ok (wigInv t L N)

noncomputable def pre : PreFFT Unit Unit where
  wigKernel _ _ _ _ _ _ := .ok ()
  sphKernel _ _ _ _ _ _ := .ok ()
  sphForward f _ L _ reality _ _ := .ok (sphFwd reality f L)
  sphInverse a _ L _ reality _ _ := .ok (sphInv reality a L)
  wigForward f _ L N _ _ _ := .ok (wigFwd f L N 0)
  wigInverse t _ L N _ _ _ := .ok (wigInv t L N)

/-- one instance of every backend -/
def IsToy (b : Backend) : Prop :=
  (∃ mr, b = .base base mr) ∨ (∃ mr, b = .looped base mr) ∨ b = .jax jax ∨ b = .ssht ssht ∨ b = .pre pre ∨ b = .torch pre

theorem sphFwd_co (reality : Bool) (p : Px) (L l m : ℤ) :
    co2 (sphFwd reality p L) l m =
      if 0 ≤ l ∧ l < L ∧ |m| ≤ l then coef reality p L l m else 0 := by
  unfold sphFwd
  rw [co2_of]
  have e : L - 1 + m - (L - 1) = m := by ring
  rw [e]
  by_cases h : 0 ≤ l ∧ l < L ∧ |m| ≤ l
  · have := abs_le.1 h.2.2
    rw [if_pos h, if_pos (by omega), if_neg (by omega)]
  · rw [if_neg h]
    split_ifs with h1 h2
    · rfl
    · exact absurd ⟨h1.1, h1.2.1, by omega⟩ h
    · rfl

theorem sphFwd_bl (reality : Bool) (p : Px) (L : ℤ) : BL2 L 0 (sphFwd reality p L) := by
  refine ⟨rfl, rfl, fun l m h => ?_⟩
  rw [sphFwd_co, if_neg]
  rintro ⟨h0, h1, h2⟩
  rw [abs_zero] at h
  omega

theorem neg_one_zpow_mul_self (m : ℤ) : (-1 : ℂ) ^ m * (-1) ^ m = 1 := by
  rw [← zpow_add₀ (by norm_num)]
  exact (Even.neg_one_zpow ⟨m, rfl⟩)

theorem neg_one_zpow_neg (m : ℤ) : (-1 : ℂ) ^ (-m) = (-1) ^ m := by
  rw [zpow_neg, ← inv_zpow]; norm_num

theorem conj_neg_one_zpow (m : ℤ) : (starRingEnd ℂ) ((-1 : ℂ) ^ m) = (-1) ^ m := by rw [map_zpow₀]; simp

theorem conj_kap : (starRingEnd ℂ) kap = kap := Complex.conj_ofReal _

theorem sphFwd_herm (p : Px) (L : ℤ) : Herm2 (sphFwd true p L) := by
  intro l m
  rw [sphFwd_co, sphFwd_co, abs_neg]
  split_ifs with h
  · have hv : ∀ m, (starRingEnd ℂ) (val true p L l m) = val true p L l m := fun m => Complex.conj_ofReal _
    unfold coef
    rcases lt_trichotomy m 0 with hm | hm | hm
    · rw [if_neg (by omega), if_pos (by omega), if_neg (by omega), if_neg (by omega)]
      simp only [map_mul, map_sub, conj_neg_one_zpow, map_inv₀, conj_kap, hv, Complex.conj_I, neg_neg]
      rw [← mul_assoc, neg_one_zpow_mul_self]; ring
    · subst hm; simp [hv, conj_kap]
    · rw [if_neg (by omega), if_neg (by omega), if_neg (by omega), if_pos (by omega), neg_one_zpow_neg]
      simp only [map_mul, map_add, map_inv₀, conj_kap, hv, Complex.conj_I, neg_neg]
      ring
  · simp

theorem val_pixel (reality : Bool) (a : Arr2 ℂ) (L l m : ℤ) :
    val reality (sphInv reality a L) L l m = pixel reality a l m := by
  have e : L - 1 + m - (L - 1) = m := by ring
  have e' : (sphInv reality a L).v [l, L - 1 + m] = pixel reality a l m := by
    show pixel reality a l (L - 1 + m - (L - 1)) = _
    rw [e]
  unfold val
  rw [e']
  cases reality
  · rfl
  · unfold pixel kap
    simp only [if_true]
    split_ifs
    · rw [← Complex.ofReal_mul, Complex.ofReal_re]
    · rw [← Complex.ofReal_mul, Complex.ofReal_re]

theorem coef_inv {reality : Bool} {a : Arr2 ℂ} (hh : reality = true → Herm2 a) (L l m : ℤ) :
    coef reality (sphInv reality a L) L l m = co2 a l m := by
  have hI : Complex.I * Complex.I = -1 := Complex.I_mul_I
  unfold coef
  simp only [val_pixel]
  have hk := kap_ne
  cases reality
  · unfold pixel
    simp only [Bool.false_eq_true, if_false]
    rcases lt_trichotomy m 0 with hm | hm | hm
    · rw [if_neg (by omega), if_neg (by omega), if_pos (by omega), if_neg (by omega), neg_one_zpow_neg, neg_neg]
      have h1 := neg_one_zpow_mul_self m
      field_simp
      linear_combination (2 * co2 a l m) * h1
    · subst hm; simp; field_simp
    · rw [if_neg (by omega), if_pos (by omega), if_pos (by omega), if_neg (by omega), neg_one_zpow_neg, neg_neg]
      field_simp
      ring
  · have hh := hh rfl
    unfold pixel
    simp only [if_true]
    rcases lt_trichotomy m 0 with hm | hm | hm
    · rw [if_neg (by omega), if_neg (by omega), if_pos (by omega), if_neg (by omega)]
      have := hh l (-m)
      rw [neg_neg, neg_one_zpow_neg] at this
      rw [this, ← mul_assoc]
      have e : (starRingEnd ℂ) (co2 a l (-m)) =
        (((co2 a l (-m)).re : ℝ) : ℂ) - Complex.I * (((co2 a l (-m)).im : ℝ) : ℂ) := by
        apply Complex.ext <;> simp
      rw [e]
      field_simp
    · subst hm
      have := hh l 0
      simp only [neg_zero, zpow_zero, one_mul] at this
      have h2 := Complex.conj_eq_iff_real.1 this.symm
      obtain ⟨r, hr⟩ := h2
      simp [hr]
      field_simp
    · rw [if_neg (by omega), if_pos (by omega), if_pos (by omega), if_neg (by omega), neg_neg]
      have e : co2 a l m = (((co2 a l m).re : ℝ) : ℂ) + Complex.I * (((co2 a l m).im : ℝ) : ℂ) := by
        apply Complex.ext <;> simp
      conv_rhs => rw [e]
      field_simp

theorem sph_exact {reality : Bool} {L spin : ℤ} {a : Arr2 ℂ} (ha : BL2 L spin a) (hh : reality = true → Herm2 a) :
    sphFwd reality (sphInv reality a L) L = a := by
  refine Arr2.ext_co ha.r.symm ha.c.symm fun l m => ?_
  rw [sphFwd_co, coef_inv hh]
  split_ifs with h
  · rfl
  · by_cases hm : l < |m|
    · rw [ha.zero l m (Or.inl hm)]
    · exact (a.junk _ _ (by rw [ha.r]; omega)).symm

theorem wigFwd_co (p : Px) (L N L0 n l m : ℤ) : co3 (wigFwd p L N L0) n l m =
    if 0 ≤ l ∧ l < L ∧ |n| < N ∧ |n| ≤ l ∧ |m| ≤ l ∧ L0 ≤ l then p.v [N - 1 + n, l, L - 1 + m] else 0 := by
  unfold wigFwd
  rw [co3_of]
  have e : L - 1 + m - (L - 1) = m := by ring
  have e' : N - 1 + n - (N - 1) = n := by ring
  rw [e, e']
  by_cases h : 0 ≤ l ∧ l < L ∧ |n| < N ∧ |n| ≤ l ∧ |m| ≤ l ∧ L0 ≤ l
  · have h1 := abs_le.1 h.2.2.2.2.1
    have h2 := abs_lt.1 h.2.2.1
    rw [if_pos h, if_pos (by omega), if_neg (by omega)]
  · rw [if_neg h]
    split_ifs with h1 h2
    · rfl
    · exfalso; apply h
      rw [abs_lt]
      omega
    · rfl

theorem wigFwd_bl (p : Px) (L N L0 : ℤ) : BL3 L N 0 (wigFwd p L N L0) := by
  refine ⟨rfl, rfl, rfl, fun n l m h => ?_⟩
  rw [wigFwd_co, if_neg]
  omega

theorem wig_exact {L N L0 L0' : ℤ} {t : Arr3 ℂ} (ht : BL3 L N L0 t) (h0 : L0' ≤ L0) :
    wigFwd (wigInv t L N) L N L0' = t := by
  refine Arr3.ext_co ht.d.symm ht.r.symm ht.c.symm fun n l m => ?_
  rw [wigFwd_co]
  have e : (2 * N - 1 - 1) / 2 = N - 1 := by omega
  have e' : co3 t n l m = t.v (N - 1 + n) l (L - 1 + m) := by rw [co3, ht.d, ht.r, e]
  split_ifs with h
  · exact e'.symm
  · by_cases hm : l < |n| ∨ l < |m| ∨ l < L0
    · rw [ht.zero n l m hm]
    · rw [e']
      refine (t.junk _ _ _ ?_).symm
      rw [ht.d, ht.r, ht.c]
      rintro ⟨h1, h2, h3, h4, h5, h6⟩
      apply h
      rw [abs_lt]
      omega

/-- every toy backend meets every contract -/
structure Good (b : Backend) (jm : JMax) (c : Cfg) : Prop where
  ready : b.Ready jm c
  std : (b.engine c).Std c.reality
  exact : (b.engine c).Exact c.spin c.reality
  trip : b.RoundTrip c
  nonneg : c.reality = true → (b.engine c).NonnegOnly

theorem construct_f_ok {jm : JMax} {c : Cfg} {J : ℤ} (hv : c.Core jm J) (nside : Option ℤ) (mr : Bool) :
    ∃ al, construct_f jm shapes c.L c.N c.J_min c.lam c.sampling nside mr = .ok al := by
  unfold construct_f
  rw [hv.top.hJ, Py.bind_ok]
  refine mapM_all_ok fun j _ _ => ?_
  have hb := hv.Lj_pos mr j
  have : f_wav_j shapes c.L j c.N c.lam c.sampling nside mr = .ok [2 * c.Nj mr j - 1, c.Lj mr j, 2 * c.Lj mr j - 1] := rfl
  rw [this, Py.bind_ok]
  unfold Px.zeros
  have h1 : ¬ (2 * c.Nj mr j - 1 < 0) := by omega
  have h2 : ¬ (c.Lj mr j < 0) := by omega
  have h3 : ¬ (2 * c.Lj mr j - 1 < 0) := by omega
  simp [h1, h2, h3]

theorem sphInv_re (a : Arr2 ℂ) (L : ℤ) : (sphInv true a L).re = sphInv true a L := by
  unfold Px.re sphInv
  congr 1
  funext idx
  dsimp only
  split
  · unfold pixel kap
    simp only [if_true]
    split_ifs
    · rw [← Complex.ofReal_mul, Complex.ofReal_re]
    · rw [← Complex.ofReal_mul, Complex.ofReal_re]
  · simp

theorem good' {jm : JMax} {c : Cfg} {J : ℤ} (hv : c.Core jm J) (hs : c.sampling = "mw") {b : Backend} (hb : IsToy b) :
    Good b jm c := by
  have hnn : c.reality = true → ∀ L a a', a.r = L → a'.r = L → a.c = a'.c → (∀ l m, 0 ≤ m → co2 a l m = co2 a' l m) →
      (Except.ok (sphInv c.reality a L) : Py Px) = .ok (sphInv c.reality a' L) := by
    intro hr L a a' h1 h2 h3 h4
    have : ∀ l m, pixel true a l m = pixel true a' l m := by
      intro l m
      unfold pixel
      simp only [if_true]
      split_ifs with hm
      · rw [h4 l m hm]
      · rw [h4 l (-m) (by omega)]
    rw [hr]
    unfold sphInv
    simp only [this]
  have hstd : ∀ p L, BL2 L 0 (sphFwd c.reality p L) ∧ (c.reality = true → Herm2 (sphFwd c.reality p L)) := by
    intro p L
    refine ⟨sphFwd_bl _ _ _, fun hr => ?_⟩
    rw [hr]; exact sphFwd_herm p L
  have hdc : ∀ a, BL2 1 c.spin a → (c.reality = true → Herm2 a) →
      sphFwd c.reality (Px.ofArr2 (a.map fun x => x * ((Real.sqrt (1 / (4 * Real.pi)) : ℝ) : ℂ))) 1 = a := by
    intro a ha hh
    refine Arr2.ext_co ha.r.symm ha.c.symm fun l m => ?_
    rw [sphFwd_co]
    split_ifs with h
    · have hl : l = 0 := by omega
      subst hl
      have hm : m = 0 := by have := abs_le.1 h.2.2; omega
      subst hm
      have e : ((Px.ofArr2 (a.map fun x => x * ((Real.sqrt (1 / (4 * Real.pi)) : ℝ) : ℂ))).v [0, 1 - 1 + 0]) =
          co2 a 0 0 * kap := by
        show (a.map fun x => x * ((Real.sqrt (1 / (4 * Real.pi)) : ℝ) : ℂ)).v 0 (1 - 1 + 0) = _
        rw [Arr2.map_v _ (by simp), co2, ha.r]; rfl
      unfold coef val
      rw [if_pos rfl, e]
      have hk := kap_ne
      cases hr : c.reality
      · simp; field_simp
      · have := hh hr 0 0
        simp only [neg_zero, zpow_zero, one_mul] at this
        obtain ⟨r, hr⟩ := Complex.conj_eq_iff_real.1 this.symm
        rw [hr]
        unfold kap at hk ⊢
        simp only [if_true]
        rw [← Complex.ofReal_mul, Complex.ofReal_re, Complex.ofReal_mul]
        field_simp
    · by_cases hm : l < |m|
      · rw [ha.zero l m (Or.inl hm)]
      · exact (a.junk _ _ (by rw [ha.r]; omega)).symm
  have hsm : ShapesMatch base c :=
    ⟨fun a L p h => by cases h; rfl, fun t L N L0 p h => by cases h; rfl⟩
  have hl : c.sampling.toLower = "mw" := by
    rw [hs]
    apply String.toList_inj.1
    rw [String.toLower, String.toList_map]
    decide
  have hk : C.sshtIndex c.sampling.toLower = .ok 0 := by rw [hl]; rfl
  rcases hb with ⟨mr, rfl⟩ | ⟨mr, rfl⟩ | rfl | rfl | rfl | rfl
  · exact ⟨construct_f_ok hv _ _, ⟨fun p L a h => by cases h; exact hstd p L, fun p L N L0 t h => by cases h; exact wigFwd_bl p L N L0⟩,
      ⟨fun L a _ ha hh => ⟨_, rfl, congrArg Except.ok (sph_exact ha hh)⟩,
        fun L N L0 t _ _ _ ht _ => ⟨_, rfl, congrArg Except.ok (wig_exact ht le_rfl)⟩⟩, hsm, hnn⟩
  · exact ⟨construct_f_ok hv _ _, ⟨fun p L a h => by cases h; exact hstd p L, fun p L N L0 t h => by cases h; exact wigFwd_bl p L N L0⟩,
      ⟨fun L a _ ha hh => ⟨_, rfl, congrArg Except.ok (sph_exact ha hh)⟩,
        fun L N L0 t _ _ _ ht _ => ⟨_, rfl, congrArg Except.ok (wig_exact ht le_rfl)⟩⟩, ⟨hsm, hnn⟩, hnn⟩
  · refine ⟨fun forward => ?_, ⟨fun p L a h => by cases h; exact hstd p L, fun p L N L0 t h => by cases h; exact wigFwd_bl p L N L0⟩,
      ⟨fun L a _ ha hh => ⟨_, rfl, congrArg Except.ok (sph_exact ha hh)⟩,
        fun L N L0 t _ _ _ ht _ => ⟨_, rfl, congrArg Except.ok (wig_exact ht le_rfl)⟩⟩,
        fun a ha hh => congrArg Except.ok (hdc a ha hh), hnn⟩
    unfold Construct.generate_wigner_precomputes
    rw [hv.top.hJ, Py.bind_ok]
    exact mapM_all_ok fun j _ _ => ⟨(), rfl⟩
  · refine ⟨⟨by rw [hl]; decide, 0, hk⟩, ⟨fun p L a h => ?_, fun p L N L0 t h => by cases h; exact wigFwd_bl p L N L0⟩,
      ⟨fun L a _ ha hh => ⟨sphInv c.reality a L, ?_, ?_⟩,
        fun L N L0 t _ _ _ ht _ => ⟨_, rfl, congrArg Except.ok (wig_exact ht le_rfl)⟩⟩,
        ⟨fun a ha hh => ?_, fun hr a L p h => ?_⟩, fun hr L a a' h1 h2 h3 h4 => ?_⟩
    · simp only [Backend.engine, cEngine, hk, Py.bind_ok] at h
      cases h; exact hstd p L
    · simp only [Backend.engine, cEngine, hk, Py.bind_ok]; rfl
    · simp only [Backend.engine, cEngine, hk, Py.bind_ok]
      exact congrArg Except.ok (sph_exact ha hh)
    · simp only [cEngine, hk, Py.bind_ok]
      exact congrArg Except.ok (hdc a ha hh)
    · simp only [cEngine, hk, Py.bind_ok] at h
      cases h
      rw [hr]; exact sphInv_re a L
    · simp only [Backend.engine, cEngine, hk, Py.bind_ok]
      exact hnn hr L a a' h1 h2 h3 h4
  all_goals
  · refine ⟨fun forward => ?_, ⟨fun p L a h => by cases h; exact hstd p L, fun p L N L0 t h => by cases h; exact wigFwd_bl p L N 0⟩,
      ⟨fun L a _ ha hh => ⟨_, rfl, congrArg Except.ok (sph_exact ha hh)⟩,
        fun L N L0 t _ _ h0 ht _ => ⟨_, rfl, congrArg Except.ok (wig_exact ht h0)⟩⟩,
        fun a ha hh => congrArg Except.ok (hdc a ha hh), hnn⟩
    unfold Construct.generate_full_precomputes
    rw [hv.top.hJ, Py.bind_ok]
    obtain ⟨l, hl⟩ := mapM_all_ok (a := c.J_min) (b := J) (m := fun j => do
      let p := LN_j c.L j c.N c.lam true
      pre.wigKernel p.1 p.2.1 c.reality c.sampling c.nside forward) fun j _ _ => ⟨(), rfl⟩
    refine ⟨(some (), some (), l), ?_⟩
    refine Eq.trans (congrArg (fun x => x >>= _) hl) rfl

theorem good {jm : JMax} {c : Cfg} {J : ℤ} (hv : c.Valid jm J) (hs : c.sampling = "mw") {b : Backend} (hb : IsToy b) :
    Good b jm c := good' hv.core hs hb

end S2wav.Toy
