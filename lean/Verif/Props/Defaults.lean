import Verif.Model.Api
import Verif.Props.Sphere
import Verif.Props.Domain
import Verif.Props.Formulas

/-! # The documented calls, with the default values of all other arguments (C97)

The calls are those of the notebooks and the README.  Signals are sampled on the default `mw` grid; s2fft is
`Sphere/Engine`. -/

namespace S2wav
open Classical Sphere

variable {L N : ℤ} {f s : Px} {w : List Px}

/-- the default configuration -/
noncomputable def defCfg (L N : ℤ) : Cfg := ⟨L, N, 0, 2, 0, "mw", none, false⟩

theorem defCfg_valid (hL : 2 ≤ L) (hN : 1 ≤ N) (hNL : N ≤ L) : ∃ J, (defCfg L N).Valid j_max J := by
  obtain ⟨J, hJ⟩ := (C01_errors L 2).2.2.1.2 ⟨by omega, by norm_num, by norm_num⟩
  have h := C01_tight (lam := 2) hL (by norm_num) hJ
  exact ⟨J, ⟨TopScale.of_j_max (L := L) (lam := 2) (by omega) (by norm_num) hJ, hN, hNL, le_rfl, h.1⟩⟩

/-- values of `f` and `r` agree at every sample of the `mw` grid of band-limit `L` -/
def SameOn (L : ℤ) (f r : Px) : Prop := ∀ t ∈ Finset.Ico 0 L, ∀ x ∈ Finset.Ico 0 (2 * L - 1), r.v [t, x] = f.v [t, x]

/-- the `mw` grid has `L` rings `θ = (2t + 1)π/(2L - 1)` of `2L - 1` samples `φ = 2πx/(2L - 1)`; `f` holds the values of the
signal with coefficients `a` there -/
def OnMw (L : ℤ) (a : ℤ → ℤ → ℂ) (f : Px) : Prop :=
  f.shape = [L, 2 * L - 1] ∧ ∀ t ∈ Finset.Ico 0 L, ∀ x ∈ Finset.Ico 0 (2 * L - 1),
    f.v [t, x] = ∑ l ∈ Finset.Ico 0 L, ∑ m ∈ Finset.Icc (-l) l,
      a l m * sY 0 l m (Real.pi * (2 * t + 1) / (2 * L - 1)) (2 * Real.pi * x / (2 * L - 1))

theorem mwGrid (L : ℤ) : gridOf "mw" L = .ok ⟨L, fun t => (2 * t + 1) * Real.pi / (2 * L - 1), 2 * L - 1⟩ := by
  unfold gridOf; rw [mw_lower]; rfl

theorem OnMw.samples {a : ℤ → ℤ → ℂ} (h : OnMw L a f) :
    Samples ⟨L, fun t => (2 * t + 1) * Real.pi / (2 * L - 1), 2 * L - 1⟩ (series 0 L a) f := by
  refine ⟨h.1, fun t ht x hx => (h.2 t ht x hx).trans ?_⟩
  unfold series node
  rw [abs_zero, mul_comm Real.pi]
  push_cast
  rfl

/-- any of the six documented pairs of calls, for the default configuration -/
theorem default_round_trip {b : Backend} (hb : IsSphere b) (hL : 2 ≤ L) (hL' : L ≤ 2049) (hN : 1 ≤ N) (hNL : N ≤ L)
    {a : ℤ → ℤ → ℂ} (hf : OnMw L a f) :
    ∃ w s r, b.analysis j_max (defCfg L N) f = .ok (w, s) ∧ b.synthesis j_max (defCfg L N) w s = .ok r ∧ SameOn L f r := by
  obtain ⟨J, hv⟩ := defCfg_valid hL hN hNL
  have e : spinOf b (defCfg L N) = 0 := spinOf_zero rfl
  have hf' : OnMw L (fun l m => if 0 ≤ l then a l m else 0) f := ⟨hf.1, fun t ht x hx => (hf.2 t ht x hx).trans
    (Finset.sum_congr rfl fun l hl => Finset.sum_congr rfl fun m _ => by beta_reduce; rw [if_pos (Finset.mem_Ico.1 hl).1])⟩
  obtain ⟨w, s, r, h1, h2, -, h3⟩ := C81_dyadic (p := 2) (a := fun l m => if 0 ≤ l then a l m else 0) hb hv (Or.inl (Or.inl mw_lower)) le_rfl (by norm_num)
    (by norm_num [defCfg]) (show L ≤ maxL 2 from hL')
    (fun l m h => if_neg (by rw [show (defCfg L N).spin = 0 from rfl, abs_zero] at h; omega))
    (fun h => by cases h) (mwGrid L) (by rw [e]; exact hf'.samples)
  exact ⟨w, s, r, h1, h2, h3⟩

/-- **C97** the calls of the NumPy notebook: `analysis_base(f, L, N)` then `synthesis_base(f_wav, f_scal, L, N)` return the
image `f`, for every band-limited signal and all `N ≤ L ≤ 2049`; likewise the looped versions -/
theorem C97_numpy (hL : 2 ≤ L) (hL' : L ≤ 2049) (hN : 1 ≤ N) (hNL : N ≤ L) {a : ℤ → ℤ → ℂ} (hf : OnMw L a f) :
    (∃ w s r, Api.analysis_base base f L N = .ok (w, s) ∧ Api.synthesis_base base w s L N = .ok r ∧ SameOn L f r) ∧
    ∃ w s r, Api.analysis_looped base f L N = .ok (w, s) ∧ Api.synthesis_looped base w s L N = .ok r ∧ SameOn L f r :=
  ⟨default_round_trip (b := .base base true) (Or.inl ⟨true, rfl⟩) hL hL' hN hNL hf,
    default_round_trip (b := .looped base true) (Or.inr (Or.inl ⟨true, rfl⟩)) hL hL' hN hNL hf⟩

/-- **C97** the calls of the JAX notebook, and the same for the C transforms: the filters are built by
`filters_directional_vectorised(L, N)` -/
theorem C97_jax (hL : 2 ≤ L) (hL' : L ≤ 2049) (hN : 1 ≤ N) (hNL : N ≤ L) {a : ℤ → ℤ → ℂ} (hf : OnMw L a f) :
    ∃ flt, Api.filters_directional_vectorised L N = .ok flt ∧
    (∃ w s r, Api.analysis jax f L N (filters := some flt) = .ok (w, s) ∧
      Api.synthesis jax w s L N (filters := some flt) = .ok r ∧ SameOn L f r) ∧
    ∃ w s r, Api.analysis_c ssht f L N (filters := some flt) = .ok (w, s) ∧
      Api.synthesis_c ssht w s L N (filters := some flt) = .ok r ∧ SameOn L f r := by
  obtain ⟨J, hv⟩ := defCfg_valid hL hN hNL
  obtain ⟨psi, phi, hflt⟩ := filters_exist hv (.jax jax)
  refine ⟨(psi, phi), hflt, ?_, ?_⟩
  · obtain ⟨w, s, r, h1, h2, h3⟩ := default_round_trip (b := .jax jax) (Or.inr (Or.inr (Or.inl rfl))) hL hL' hN hNL hf
    rw [Backend.analysis_eq_with hflt] at h1
    rw [Backend.synthesis_eq_with hflt] at h2
    exact ⟨w, s, r, (C46_precomps jax f (some (psi, phi))).1.trans h1, ((C46_precomps jax f (some (psi, phi))).2.1 w s).trans h2, h3⟩
  · obtain ⟨w, s, r, h1, h2, h3⟩ := default_round_trip (b := .ssht ssht) (Or.inr (Or.inr (Or.inr (Or.inl rfl)))) hL hL' hN hNL hf
    rw [Backend.analysis_eq_with (b := .ssht ssht) hflt] at h1
    rw [Backend.synthesis_eq_with (b := .ssht ssht) hflt] at h2
    exact ⟨w, s, r, h1, h2, h3⟩

/-- **C97** the calls of the torch notebook, and the same for the precomputed JAX transforms: kernels with `forward=False` for
the analysis and `forward=True` for the synthesis -/
theorem C97_precompute (hL : 2 ≤ L) (hL' : L ≤ 2049) (hN : 1 ≤ N) (hNL : N ≤ L) {a : ℤ → ℤ → ℂ} (hf : OnMw L a f) :
    ∃ flt pa ps, Api.filters_directional_vectorised L N = .ok flt ∧
    Api.generate_full_precomputes pre L N (forward := false) = .ok pa ∧
    Api.generate_full_precomputes pre L N (forward := true) = .ok ps ∧
    (∃ w s r, Api.analysis_precomp_torch pre f L N (filters := some flt) (precomps := some pa) = .ok (w, s) ∧
      Api.synthesis_precomp_torch pre w s L N (filters := some flt) (precomps := some ps) = .ok r ∧ SameOn L f r) ∧
    ∃ w s r, Api.analysis_precomp_jax pre f L N (filters := some flt) (precomps := some pa) = .ok (w, s) ∧
      Api.synthesis_precomp_jax pre w s L N (filters := some flt) (precomps := some ps) = .ok r ∧ SameOn L f r := by
  obtain ⟨J, hv⟩ := defCfg_valid hL hN hNL
  obtain ⟨psi, phi, hflt⟩ := filters_exist hv (.pre pre)
  have hR := (C81_works (b := .pre pre) (Or.inr (Or.inr (Or.inr (Or.inr (Or.inl rfl))))) hv (fun h => by cases h)
    (Or.inl (Or.inl mw_lower))).1.ready
  obtain ⟨pa, hpa⟩ := hR false
  obtain ⟨ps, hps⟩ := hR true
  refine ⟨(psi, phi), pa, ps, hflt, hpa, hps, ?_, ?_⟩
  · obtain ⟨w, s, r, h1, h2, h3⟩ := default_round_trip (b := .torch pre) (Or.inr (Or.inr (Or.inr (Or.inr (Or.inr rfl))))) hL hL' hN hNL hf
    rw [Backend.analysis_eq_with (b := .torch pre) hflt] at h1
    rw [Backend.synthesis_eq_with (b := .torch pre) hflt] at h2
    simp only [Backend.analysisWith, Backend.synthesisWith, hpa, hps, Py.bind_ok] at h1 h2
    exact ⟨w, s, r, h1, h2, h3⟩
  · obtain ⟨w, s, r, h1, h2, h3⟩ := default_round_trip (b := .pre pre) (Or.inr (Or.inr (Or.inr (Or.inr (Or.inl rfl))))) hL hL' hN hNL hf
    rw [Backend.analysis_eq_with hflt] at h1
    rw [Backend.synthesis_eq_with hflt] at h2
    simp only [Backend.analysisWith, Backend.synthesisWith, hpa, hps, Py.bind_ok] at h1 h2
    exact ⟨w, s, r, h1, h2, h3⟩

/-- **C97** the calls of the README, `s2wav.analysis(f, L, N)` and `s2wav.synthesis(f_wav, f_scal, L, N)`, never return: the
filters have no default; neither do the kernels of the precomputed transforms -/
theorem C97_readme {K KW KS : Type} (E : JaxFFT K) (E' : PreFFT KW KS) (E'' : CFFT) (f s : Px) (w : List Px) (L N : ℤ) :
    (∀ r, Api.analysis E f L N ≠ .ok r) ∧ (∀ r, Api.synthesis E w s L N ≠ .ok r) ∧
    (∀ r, Api.analysis_c E'' f L N ≠ .ok r) ∧ (∀ r, Api.synthesis_c E'' w s L N ≠ .ok r) ∧
    (∀ flt, Api.analysis_precomp_jax E' f L N (filters := flt) = .error .valueError) ∧
    (∀ flt, Api.synthesis_precomp_jax E' w s L N (filters := flt) = .error .valueError) ∧
    (∀ flt, Api.analysis_precomp_torch E' f L N (filters := flt) = .error .valueError) ∧
    ∀ flt, Api.synthesis_precomp_torch E' w s L N (filters := flt) = .error .valueError := by
  have h := C35_filters (jm := j_max) (L := L) (N := N) (J_min := 0) (lam := 2) (spin := 0) (sampling := "mw") (nside := none)
    (reality := false) E E' E'' f s w none none
  have h' := fun flt => C35_precomps (jm := j_max) (L := L) (N := N) (J_min := 0) (lam := 2) (spin := 0) (sampling := "mw") (nside := none)
    (reality := false) E' f s w ⟨0, 0, fun _ _ => 0, fun _ _ _ => rfl⟩ flt none none false
  exact ⟨h.1, h.2.1, h.2.2.1, h.2.2.2.1, fun flt => (h' flt).1, fun flt => (h' flt).2.1, fun flt => (h' flt).2.2.2.1,
    fun flt => (h' flt).2.2.2.2.1⟩

theorem shapes_s2 (L : ℤ) : shapes.s2 L "mw" none = .ok [L, 2 * L - 1] := by
  show (gridOf "mw" L >>= _) = _
  rw [mwGrid]; rfl

theorem shapes_so3 (L N : ℤ) : shapes.so3 L N "mw" none = .ok [2 * N - 1, L, 2 * L - 1] := by
  show (gridOf "mw" L >>= _) = _
  rw [mwGrid]; rfl

theorem default_shapes (hL : 2 ≤ L) (hN : 1 ≤ N) (hNL : N ≤ L) (h : Api.analysis_base base f L N = .ok (w, s)) :
    Api.wavelet_shape_check shapes w s L N (multiresolution := true) = .ok () ∧
    ∃ J, Api.j_max L = .ok J ∧ (w.length : ℤ) = J + 1 ∧ s.shape = [1, 1] ∧ ∀ j, 0 ≤ j → j ≤ J → ∃ p, listGet w j = .ok p ∧
      p.shape = [2 * (LN_j L j N 2 true).2.1 - 1, (LN_j L j N 2 true).1, 2 * (LN_j L j N 2 true).1 - 1] := by
  obtain ⟨J, hv⟩ := defCfg_valid hL hN hNL
  have hw := (C81_works (b := .base base true) (Or.inl ⟨true, rfl⟩) hv (fun h => by cases h) (Or.inl (Or.inl mw_lower))).1
  have hok : Api.wavelet_shape_check shapes w s L N (multiresolution := true) = .ok () :=
    C31_accepted hv (Or.inl rfl) hw.ready hw.std hw.trip h
  have hLs : scal_bandlimit L 0 2 true = 1 := (C44_single_degree hv hL).2 rfl
  refine ⟨hok, J, hv.top.hJ, ?_⟩
  by_contra hne
  have := (C31_check (jm := j_max) (L := L) (lam := 2) (N := N) (J_min := 0) hv.top.hJ shapes w s (mr := true) (sampling := "mw")
    (nside := none) (shapes_s2 _) fun j _ _ => shapes_so3 _ _).2 fun h => hne ?_
  · rw [show wavelet_shape_check j_max shapes w s L N 0 2 "mw" none true = .ok () from hok] at this
    cases this
  · rw [hLs] at h
    simpa using h

/-- **C97** the helpers of `samples.py`, given the same arguments and `multiresolution=True`, predict the number and the shapes of
the maps that the default analysis returns -/
theorem C97_shapes (hL : 2 ≤ L) (hN : 1 ≤ N) (hNL : N ≤ L) (h : Api.analysis_base base f L N = .ok (w, s)) :
    Api.n_wav_scales L N = .ok w.length ∧ Api.f_scal shapes L (multiresolution := true) = .ok s.shape ∧
    Api.scal_bandlimit L (multiresolution := true) = 1 ∧
    ∀ j : ℤ, 0 ≤ j → j < w.length → ∃ p, listGet w j = .ok p ∧ Api.f_wav_j shapes L j N (multiresolution := true) = .ok p.shape := by
  obtain ⟨-, J, hJ, hl, hs, hp⟩ := default_shapes hL hN hNL h
  obtain ⟨J', hv⟩ := defCfg_valid hL hN hNL
  refine ⟨?_, ?_, (C44_single_degree hv hL).2 rfl, fun j h0 h1 => ?_⟩
  · show (j_max L 2 >>= fun J => .ok (J - 0 + 1)) = _
    rw [show j_max L 2 = .ok J from hJ, hl, Py.bind_ok, sub_zero]
  · rw [hs]
    show shapes.s2 (min ⌈(2 : ℝ) ^ (0 : ℤ)⌉ L) "mw" none = _
    rw [zpow_zero, Int.ceil_one, min_eq_left (by omega), shapes_s2]; rfl
  · obtain ⟨p, h2, h3⟩ := hp j h0 (by omega)
    exact ⟨p, h2, by rw [h3]; exact shapes_so3 _ _⟩

/-- **C97** the helpers of `samples.py` default to `multiresolution=False`, the transforms to `True`: what `analysis_base(f, L, N)`
returns fails `wavelet_shape_check(f_wav, f_scal, L, N)`, and passes it with `multiresolution=True` -/
theorem C97_multiresolution (hL : 2 ≤ L) (hN : 1 ≤ N) (hNL : N ≤ L) (h : Api.analysis_base base f L N = .ok (w, s)) :
    Api.wavelet_shape_check shapes w s L N = .error .assertion ∧
    Api.wavelet_shape_check shapes w s L N (multiresolution := true) = .ok () ∧
    Api.f_scal shapes L = .ok [L, 2 * L - 1] ∧ s.shape = [1, 1] := by
  obtain ⟨hok, J, hJ, hl, hs, hp⟩ := default_shapes hL hN hNL h
  refine ⟨?_, hok, shapes_s2 L, hs⟩
  refine (C31_check (jm := j_max) (L := L) (lam := 2) (N := N) (J_min := 0) hJ shapes w s (mr := false) (sampling := "mw")
    (nside := none) (shapes_s2 _) fun j _ _ => shapes_so3 _ _).2 fun h => ?_
  have h' := h.2.1
  rw [hs, show scal_bandlimit L 0 2 false = L from rfl] at h'
  simp at h'
  omega

/-- **C97** without `N` all these calls are axisymmetric: one orientation per scale -/
theorem C97_axisymmetric (hL : 2 ≤ L) (hL' : L ≤ 2049) {a : ℤ → ℤ → ℂ} (hf : OnMw L a f) :
    (∃ w s r, Api.analysis_base base f L = .ok (w, s) ∧ Api.synthesis_base base w s L = .ok r ∧ SameOn L f r ∧
      ∀ j : ℤ, 0 ≤ j → j < w.length → ∃ p Lj, listGet w j = .ok p ∧ p.shape = [1, Lj, 2 * Lj - 1]) ∧
    ∃ flt, Api.filters_directional_vectorised L = .ok flt ∧
    (∃ w s r, Api.analysis jax f L (filters := some flt) = .ok (w, s) ∧
      Api.synthesis jax w s L (filters := some flt) = .ok r ∧ SameOn L f r) ∧
    (∃ w s r, Api.analysis_c ssht f L (filters := some flt) = .ok (w, s) ∧
      Api.synthesis_c ssht w s L (filters := some flt) = .ok r ∧ SameOn L f r) ∧
    ∃ pa ps, Api.generate_full_precomputes pre L 1 = .ok pa ∧ Api.generate_full_precomputes pre L 1 (forward := true) = .ok ps ∧
    (∃ w s r, Api.analysis_precomp_torch pre f L (filters := some flt) (precomps := some pa) = .ok (w, s) ∧
      Api.synthesis_precomp_torch pre w s L (filters := some flt) (precomps := some ps) = .ok r ∧ SameOn L f r) ∧
    ∃ w s r, Api.analysis_precomp_jax pre f L (filters := some flt) (precomps := some pa) = .ok (w, s) ∧
      Api.synthesis_precomp_jax pre w s L (filters := some flt) (precomps := some ps) = .ok r ∧ SameOn L f r := by
  obtain ⟨⟨w, s, r, h1, h2, h3⟩, -⟩ := C97_numpy (N := 1) hL hL' le_rfl (by omega) hf
  obtain ⟨flt, hflt, hj, hc⟩ := C97_jax (N := 1) hL hL' le_rfl (by omega) hf
  obtain ⟨flt', pa, ps, hflt', hpa, hps, ht, hp⟩ := C97_precompute (N := 1) hL hL' le_rfl (by omega) hf
  have : flt' = flt := Except.ok.inj (hflt'.symm.trans hflt)
  subst this
  refine ⟨⟨w, s, r, h1, h2, h3, fun j h0 hj => ?_⟩, flt', hflt, hj, hc, pa, ps, hpa, hps, ht, hp⟩
  obtain ⟨-, J, -, hl, -, hsh⟩ := default_shapes hL le_rfl (by omega) h1
  obtain ⟨p, h4, h5⟩ := hsh j h0 (by omega)
  have := LN_j_Nj_bounds (L := L) (N := 1) (lam := 2) (by omega) (by norm_num) le_rfl j true
  refine ⟨p, (LN_j L j 1 2 true).1, h4, h5.trans ?_⟩
  rw [show (LN_j L j 1 2 true).2.1 = 1 by omega]; rfl

/-- a directional family that only has order 0, in terms of an axisymmetric one -/
def ZonalOf (L : ℤ) (k : Arr2 ℝ) (kpsi : Arr2 ℝ) (kphi : Arr1 ℝ) (psi : Arr3 ℂ) (phi : Arr1 ℝ) : Prop :=
  ∀ l, 0 ≤ l → l < L → kphi.v l = Real.sqrt (k.v 0 l) ∧ phi.v l = Real.sqrt ((2 * l + 1) / (4 * Real.pi)) * kphi.v l ∧
    ∀ j m, |m| < L → psi.v j l (L - 1 + m) =
      if m = 0 ∧ 1 ≤ l then ((Real.sqrt ((2 * l + 1) / (8 * Real.pi ^ 2)) * kpsi.v j l : ℝ) : ℂ) else 0

theorem zonal_of (hL : 2 ≤ L) {J : ℤ} (hJ : j_max L 2 = .ok J) {k kpsi : Arr2 ℝ} {kphi phi : Arr1 ℝ} {psi : Arr3 ℂ}
    (hk : S2wav.k_lam j_max L 2 300 = .ok k) (hB : AxBuilt j_max L 0 2 kpsi kphi)
    (h : (filters_directional j_max L 1 0 2 0 0 = .ok (psi, phi) ∧ filters_axisym j_max L 0 2 = .ok (kpsi, kphi)) ∨
      (filters_directional_vectorised j_max L 1 0 2 0 0 = .ok (psi, phi) ∧ filters_axisym_vectorised j_max L 0 2 = .ok (kpsi, kphi)) ∨
      (filters_directional_jax j_max L 1 0 2 0 0 = .ok (psi, phi) ∧ filters_axisym_jax j_max L 0 2 = .ok (kpsi, kphi))) :
    ZonalOf L k kpsi kphi psi phi := by
  intro l h0 h1
  have ht := tiling_direction_ok (L := L) (N := 1) (by omega) le_rfl
  obtain ⟨-, h2⟩ := C57_directional_values (by omega) le_rfl (by norm_num) hJ ht h h1
  obtain ⟨sn, e, h3, h4⟩ := h2 (by simpa using h0)
  have e : sn = 1 := by
    rw [e, zpow_zero, one_mul, add_zero, sub_zero, div_self (by exact_mod_cast (Nat.factorial_pos _).ne'), Real.sqrt_one]
  refine ⟨(C55_axisym_values (by omega) (by norm_num) hJ hk).1 hB l, by rw [h3, e, mul_one], fun j m hm => ?_⟩
  rw [h4, e, mul_one, C56_tiling_values (by omega) le_rfl (Or.inl ht) h1 hm]
  have hd : l ≠ 0 → dirDegree 1 l = 0 := fun h => by unfold dirDegree; omega
  by_cases hc : m = 0 ∧ 1 ≤ l
  · rw [if_pos hc, hc.1, if_pos ⟨hc.2, by rw [hd (by omega), abs_zero], by norm_num⟩, hd (by omega)]
    norm_num
  · rw [if_neg hc, if_neg, mul_zero]
    rintro ⟨a, b, -⟩
    rw [hd (by omega)] at b
    exact hc ⟨abs_nonpos_iff.1 b, a⟩

/-- **C97** the filters of the calls without optional arguments: those of `filters_directional(L)` are the axisymmetric ones of
`filters_axisym(L)` at order 0, whose scaling function is the root of the first row of `k_lam(L)`; likewise the vectorised and the
JAX ones -/
theorem C97_filters (hL : 2 ≤ L) : ∃ k, Api.k_lam L = .ok k ∧ Api.k_lam_jax L = .ok k ∧
    (∃ kpsi kphi psi phi, Api.filters_axisym L = .ok (kpsi, kphi) ∧ Api.filters_directional L = .ok (psi, phi) ∧ ZonalOf L k kpsi kphi psi phi) ∧
    (∃ kpsi kphi psi phi, Api.filters_axisym_vectorised L = .ok (kpsi, kphi) ∧ Api.filters_directional_vectorised L = .ok (psi, phi) ∧
      ZonalOf L k kpsi kphi psi phi) ∧
    ∃ kpsi kphi psi phi, Api.filters_axisym_jax L = .ok (kpsi, kphi) ∧ Api.filters_directional_jax L = .ok (psi, phi) ∧
      ZonalOf L k kpsi kphi psi phi := by
  obtain ⟨J, hv⟩ := defCfg_valid (N := 1) hL le_rfl (by omega)
  have hT : TopScale j_max L 2 J := hv.top
  have h1 : 0 < J := hv.h1
  have hk := k_lam_ok hT (show (3 : ℤ) ≤ 300 by norm_num)
  obtain ⟨p, ha, hd, -⟩ := filters_directional_ok (N := 1) hT le_rfl le_rfl h1 0 0
  have ha2 := filters_axisym_vectorised_ok hT le_rfl h1
  have hd2 := filters_directional_vectorised_ok (N := 1) hT le_rfl le_rfl h1 0
  have ha3 := (filters_axisym_jax_eq hT 0).trans ha2
  have hd3 := filters_directional_jax_ok (N := 1) hT le_rfl le_rfl h1 0
  exact ⟨_, hk, (k_lam_jax_eq _ _ _ _).trans hk, ⟨_, _, _, _, ha, hd, zonal_of hL hT.hJ hk (Or.inl ha) (Or.inl ⟨hd, ha⟩)⟩,
    ⟨_, _, _, _, ha2, hd2, zonal_of hL hT.hJ hk (Or.inr (Or.inl ha2)) (Or.inr (Or.inl ⟨hd2, ha2⟩))⟩,
    ⟨_, _, _, _, ha3, hd3, zonal_of hL hT.hJ hk (Or.inr (Or.inr ha3)) (Or.inr (Or.inr ⟨hd3, ha3⟩))⟩⟩

/-- **C97** the other optional arguments of the transforms, for any s2fft: `N = 1`, `J_min = 0`, `lam = 2`, `spin = 0`, `spin0 = 0`,
`sampling = "mw"`, no `nside`, `reality = False`, and `multiresolution = True`, `scattering = False` in `base.py` -/
theorem C97_defaults {K KW KS : Type} (E : JaxFFT K) (E' : PreFFT KW KS) (E'' : CFFT) (B : BaseFFT) (f s : Px) (w : List Px) (L : ℤ)
    (flt : Option (Arr3 ℂ × Arr1 ℝ)) (pc : Option (List K)) (pp : Option (Option KS × Option KS × List KW)) :
    (Api.analysis_base B f L = Base.analysis j_max B f L 1 0 2 0 0 "mw" none false true false ∧
      Api.synthesis_base B w s L = Base.synthesis j_max B w s L 1 0 2 0 0 "mw" none false true) ∧
    (Api.analysis_looped B f L = Base.analysis_looped j_max B f L 1 0 2 0 0 "mw" none false true ∧
      ∀ N, Api.synthesis_looped B w s L N = Base.synthesis_looped j_max B w s L N 0 2 0 0 "mw" none false true) ∧
    (Api.analysis E f L (filters := flt) (precomps := pc) = Jax.analysis j_max E f L 1 0 2 0 "mw" none false flt pc ∧
      Api.synthesis E w s L (filters := flt) (precomps := pc) = Jax.synthesis j_max E w s L 1 0 2 0 "mw" none false flt pc) ∧
    (Api.analysis_c E'' f L (filters := flt) = C.analysis j_max E'' f L 1 0 2 0 "mw" false flt ∧
      Api.synthesis_c E'' w s L (filters := flt) = C.synthesis j_max E'' w s L 1 0 2 0 "mw" false flt) ∧
    (Api.analysis_precomp_jax E' f L (filters := flt) (precomps := pp) = Pre.analysis j_max E' f L 1 0 2 0 "mw" none false flt pp ∧
      Api.synthesis_precomp_jax E' w s L (filters := flt) (precomps := pp) = Pre.synthesis j_max E' w s L 1 0 2 0 "mw" none false flt pp) ∧
    Api.analysis_precomp_torch E' f L (filters := flt) (precomps := pp) = Torch.analysis j_max E' f L 1 0 2 0 "mw" none false flt pp ∧
    Api.synthesis_precomp_torch E' w s L (filters := flt) (precomps := pp) = Torch.synthesis j_max E' w s L 1 0 2 0 "mw" none false flt pp :=
  ⟨⟨rfl, rfl⟩, ⟨rfl, fun _ => rfl⟩, ⟨rfl, rfl⟩, ⟨rfl, rfl⟩, ⟨rfl, rfl⟩, rfl, rfl⟩

/-- **C97** and those of the remaining functions; the helpers of `samples.py` have `multiresolution = False` -/
theorem C97_defaults_helpers {K KW KS : Type} (E : JaxFFT K) (E' : PreFFT KW KS) (E'' : CFFT) (S : Shapes) (flm : Arr2 ℂ) (s : Px) (w : List Px)
    (L N j : ℤ) (flt : Option (Arr3 ℂ)) (pc : Option (List K)) :
    (Api.flm_to_analysis E flm L (filters := flt) (precomps := pc) = Jax.flm_to_analysis j_max E flm L 1 0 none 2 "mw" none false flt pc ∧
      Api.flm_to_analysis_c E'' flm L (filters := flt) = C.flm_to_analysis j_max E'' flm L 1 0 none 2 "mw" false flt) ∧
    (Api.generate_full_precomputes E' L N = Construct.generate_full_precomputes j_max E' L N 0 2 "mw" none false false false ∧
      Api.generate_wigner_precomputes E L N = Construct.generate_wigner_precomputes j_max E L N 0 2 "mw" none false false) ∧
    (Api.f_scal S L = S.s2 L "mw" none ∧ Api.scal_bandlimit L = L ∧ Api.wav_j_bandlimit L j = L ∧
      Api.LN_j L = LN_j L 0 1 2 false ∧ Api.f_wav_j S L = f_wav_j S L 0 1 2 "mw" none false) ∧
    Api.construct_f S L = construct_f j_max S L 1 0 2 "mw" none false ∧
    Api.wavelet_shape_check S w s L = wavelet_shape_check j_max S w s L 1 0 2 "mw" none false ∧
    Api.n_wav_scales L = n_wav_scales j_max L 1 0 2 ∧ Api.j_max L = S2wav.j_max L 2 :=
  ⟨⟨rfl, rfl⟩, ⟨rfl, rfl⟩, ⟨rfl, rfl, rfl, rfl, rfl⟩, rfl, rfl, rfl, rfl⟩

/-- the notebooks' own configuration, with a constant signal -/
example : ∃ f : Px, OnMw 16 (fun l _ => if l = 0 then 1 else 0) f ∧ f.v [0, 0] ≠ 0 ∧
    ∃ w s r, Api.analysis_base base f 16 3 = .ok (w, s) ∧ Api.synthesis_base base w s 16 3 = .ok r ∧ r.v [0, 0] = f.v [0, 0] ∧
      Api.wavelet_shape_check shapes w s 16 3 = .error .assertion := by
  have hf : OnMw 16 (fun l _ => if l = 0 then 1 else 0) ⟨[16, 2 * 16 - 1], fun _ => ((Real.sqrt (1 / (4 * Real.pi)) : ℝ) : ℂ)⟩ := by
    refine ⟨rfl, fun t _ x _ => ?_⟩
    rw [Finset.sum_eq_single 0]
    · rw [show Finset.Icc (-(0 : ℤ)) 0 = {0} from rfl, Finset.sum_singleton, sY_zero]; simp
    · intro l _ hl
      simp [hl]
    · intro h; simp at h
  obtain ⟨⟨w, s, r, h1, h2, h3⟩, -⟩ := C97_numpy (L := 16) (N := 3) (by norm_num) (by norm_num) (by norm_num) (by norm_num) hf
  refine ⟨_, hf, ?_, w, s, r, h1, h2, h3 0 (by simp) 0 (by simp), (C97_multiresolution (by norm_num) (by norm_num) (by norm_num) h1).1⟩
  have : Real.sqrt (1 / (4 * Real.pi)) ≠ 0 := by
    have := Real.pi_pos
    positivity
  exact Complex.ofReal_ne_zero.2 this

end S2wav
