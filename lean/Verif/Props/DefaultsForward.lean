import Verif.Props.Defaults

/-! # Every argument given by the caller reaches the routine, in its own place (C97) -/

namespace S2wav
open Classical

/-- **C97** filters and helpers: arguments given by name, in the order of the Python signatures reversed -/
theorem C97_forward_helpers (S : Shapes) (w : List Px) (s : Px) (L N J_min j q spin spin0 : ℤ) (lam : ℝ) (smp : String)
    (ns : Option ℤ) (mr : Bool) :
    (Api.filters_axisym (lam := lam) (J_min := J_min) (L := L) = filters_axisym j_max L J_min lam ∧
      Api.filters_axisym_vectorised (lam := lam) (J_min := J_min) (L := L) = filters_axisym_vectorised j_max L J_min lam ∧
      Api.filters_axisym_jax (lam := lam) (J_min := J_min) (L := L) = filters_axisym_jax j_max L J_min lam) ∧
    (Api.filters_directional (spin0 := spin0) (spin := spin) (lam := lam) (J_min := J_min) (N := N) (L := L) =
        filters_directional j_max L N J_min lam spin spin0 ∧
      Api.filters_directional_vectorised (spin0 := spin0) (spin := spin) (lam := lam) (J_min := J_min) (N := N) (L := L) =
        filters_directional_vectorised j_max L N J_min lam spin spin0 ∧
      Api.filters_directional_jax (spin0 := spin0) (spin := spin) (lam := lam) (J_min := J_min) (N := N) (L := L) =
        filters_directional_jax j_max L N J_min lam spin spin0) ∧
    (Api.k_lam (quad_iters := q) (lam := lam) (L := L) = k_lam j_max L lam q ∧
      Api.k_lam_jax (quad_iters := q) (lam := lam) (L := L) = k_lam_jax j_max L lam q) ∧
    (Api.f_scal S (multiresolution := mr) (nside := ns) (sampling := smp) (lam := lam) (J_min := J_min) (L := L) =
        f_scal S L J_min lam smp ns mr ∧
      Api.f_wav_j S (multiresolution := mr) (nside := ns) (sampling := smp) (lam := lam) (N := N) (j := j) (L := L) =
        f_wav_j S L j N lam smp ns mr ∧
      Api.construct_f S (multiresolution := mr) (nside := ns) (sampling := smp) (lam := lam) (J_min := J_min) (N := N) (L := L) =
        construct_f j_max S L N J_min lam smp ns mr ∧
      Api.wavelet_shape_check S w s (multiresolution := mr) (nside := ns) (sampling := smp) (lam := lam) (J_min := J_min) (N := N)
        (L := L) = wavelet_shape_check j_max S w s L N J_min lam smp ns mr) ∧
    Api.n_wav_scales (lam := lam) (J_min := J_min) (N := N) (L := L) = n_wav_scales j_max L N J_min lam ∧
    Api.LN_j (multiresolution := mr) (lam := lam) (N := N) (j := j) (L := L) = LN_j L j N lam mr ∧
    Api.scal_bandlimit (multiresolution := mr) (lam := lam) (J_min := J_min) (L := L) = scal_bandlimit L J_min lam mr ∧
    Api.wav_j_bandlimit (multiresolution := mr) (lam := lam) (j := j) (L := L) = wav_j_bandlimit L j lam mr ∧
    Api.j_max (lam := lam) (L := L) = S2wav.j_max L lam :=
  ⟨⟨rfl, rfl, rfl⟩, ⟨rfl, rfl, rfl⟩, ⟨rfl, rfl⟩, ⟨rfl, rfl, rfl, rfl⟩, rfl, rfl, rfl, rfl, rfl⟩

/-- **C97** the transforms and their precomputations -/
theorem C97_forward {K KW KS : Type} (E : JaxFFT K) (E' : PreFFT KW KS) (E'' : CFFT) (B : BaseFFT) (f s : Px) (w : List Px)
    (flm : Arr2 ℂ) (L N J_min spin spin0 : ℤ) (Jx : Option ℤ) (lam : ℝ) (smp : String) (ns : Option ℤ) (re mr sc fw nosph : Bool)
    (flt : Option (Arr3 ℂ × Arr1 ℝ)) (flt' : Option (Arr3 ℂ)) (pc : Option (List K)) (pp : Option (Option KS × Option KS × List KW)) :
    (Api.analysis_base B f L N (scattering := sc) (multiresolution := mr) (reality := re) (nside := ns) (sampling := smp)
        (spin0 := spin0) (spin := spin) (lam := lam) (J_min := J_min) =
        Base.analysis j_max B f L N J_min lam spin spin0 smp ns re mr sc ∧
      Api.synthesis_base B w s L N (multiresolution := mr) (reality := re) (nside := ns) (sampling := smp)
        (spin0 := spin0) (spin := spin) (lam := lam) (J_min := J_min) =
        Base.synthesis j_max B w s L N J_min lam spin spin0 smp ns re mr ∧
      Api.analysis_looped B f L N (multiresolution := mr) (reality := re) (nside := ns) (sampling := smp)
        (spin0 := spin0) (spin := spin) (lam := lam) (J_min := J_min) =
        Base.analysis_looped j_max B f L N J_min lam spin spin0 smp ns re mr ∧
      Api.synthesis_looped B w s L N (multiresolution := mr) (reality := re) (nside := ns) (sampling := smp)
        (spin0 := spin0) (spin := spin) (lam := lam) (J_min := J_min) =
        Base.synthesis_looped j_max B w s L N J_min lam spin spin0 smp ns re mr) ∧
    (Api.analysis E f L N (precomps := pc) (filters := flt) (reality := re) (nside := ns) (sampling := smp) (spin := spin)
        (lam := lam) (J_min := J_min) = Jax.analysis j_max E f L N J_min lam spin smp ns re flt pc ∧
      Api.synthesis E w s L N (precomps := pc) (filters := flt) (reality := re) (nside := ns) (sampling := smp) (spin := spin)
        (lam := lam) (J_min := J_min) = Jax.synthesis j_max E w s L N J_min lam spin smp ns re flt pc ∧
      Api.flm_to_analysis E flm L N (precomps := pc) (filters := flt') (reality := re) (nside := ns) (sampling := smp)
        (lam := lam) (J_max := Jx) (J_min := J_min) = Jax.flm_to_analysis j_max E flm L N J_min Jx lam smp ns re flt' pc) ∧
    (Api.analysis_c E'' f L N (filters := flt) (reality := re) (sampling := smp) (spin := spin) (lam := lam) (J_min := J_min) =
        C.analysis j_max E'' f L N J_min lam spin smp re flt ∧
      Api.synthesis_c E'' w s L N (filters := flt) (reality := re) (sampling := smp) (spin := spin) (lam := lam) (J_min := J_min) =
        C.synthesis j_max E'' w s L N J_min lam spin smp re flt ∧
      Api.flm_to_analysis_c E'' flm L N (filters := flt') (reality := re) (sampling := smp) (lam := lam) (J_max := Jx)
        (J_min := J_min) = C.flm_to_analysis j_max E'' flm L N J_min Jx lam smp re flt') ∧
    (Api.analysis_precomp_jax E' f L N (precomps := pp) (filters := flt) (reality := re) (nside := ns) (sampling := smp)
        (spin := spin) (lam := lam) (J_min := J_min) = Pre.analysis j_max E' f L N J_min lam spin smp ns re flt pp ∧
      Api.synthesis_precomp_jax E' w s L N (precomps := pp) (filters := flt) (reality := re) (nside := ns) (sampling := smp)
        (spin := spin) (lam := lam) (J_min := J_min) = Pre.synthesis j_max E' w s L N J_min lam spin smp ns re flt pp ∧
      Api.analysis_precomp_torch E' f L N (precomps := pp) (filters := flt) (reality := re) (nside := ns) (sampling := smp)
        (spin := spin) (lam := lam) (J_min := J_min) = Torch.analysis j_max E' f L N J_min lam spin smp ns re flt pp ∧
      Api.synthesis_precomp_torch E' w s L N (precomps := pp) (filters := flt) (reality := re) (nside := ns) (sampling := smp)
        (spin := spin) (lam := lam) (J_min := J_min) = Torch.synthesis j_max E' w s L N J_min lam spin smp ns re flt pp) ∧
    Api.generate_full_precomputes E' L N (nospherical := nosph) (reality := re) (forward := fw) (nside := ns) (sampling := smp)
        (lam := lam) (J_min := J_min) = Construct.generate_full_precomputes j_max E' L N J_min lam smp ns fw re nosph ∧
    Api.generate_wigner_precomputes E L N (reality := re) (forward := fw) (nside := ns) (sampling := smp)
        (lam := lam) (J_min := J_min) = Construct.generate_wigner_precomputes j_max E L N J_min lam smp ns fw re :=
  ⟨⟨rfl, rfl, rfl, rfl⟩, ⟨rfl, rfl, rfl⟩, ⟨rfl, rfl, rfl⟩, ⟨rfl, rfl, rfl, rfl⟩, rfl, rfl⟩

/-- the arguments matter: another `J_min` gives another number of scales -/
example : Api.n_wav_scales 16 (J_min := 2) = .ok 3 ∧ Api.n_wav_scales 16 = .ok 5 := by
  have h : S2wav.j_max 16 2 = .ok 4 := by
    obtain ⟨J, hJ⟩ := (C01_errors 16 2).2.2.1.2 ⟨by norm_num, by norm_num, by norm_num⟩
    obtain ⟨-, h1, h2⟩ := C01_tight (L := 16) (lam := 2) (by norm_num) (by norm_num) hJ
    have e : ((16 : ℤ) : ℝ) = 2 ^ (4 : ℤ) := by norm_num
    rw [e] at h1 h2
    have h1 := (zpow_lt_zpow_iff_right₀ (by norm_num)).1 h1
    have h2 := (zpow_le_zpow_iff_right₀ (by norm_num)).1 h2
    rw [hJ, show J = 4 by omega]
  constructor
  · show (S2wav.j_max 16 2 >>= fun J => .ok (J - 2 + 1)) = _
    rw [h]; rfl
  · show (S2wav.j_max 16 2 >>= fun J => .ok (J - 0 + 1)) = _
    rw [h]; rfl

end S2wav
