import Verif.Props.Use

/-! # More directions than degrees (`N > L`): C40 -/

namespace S2wav
open Classical

section
variable {jm : JMax} {L N J_min J : ℤ} {lam : ℝ} {spin : ℤ} {sampling : String} {nside : Option ℤ} {reality mr : Bool}
  {c : Cfg} {psi : Arr3 ℂ} {phi : Arr1 ℝ}

theorem pyRange_cons {a b : ℤ} (h : a < b) : pyRange a b = a :: pyRange (a + 1) b := by
  refine List.ext_getElem (by simp only [List.length_cons, length_pyRange]; omega) fun i h1 h2 => ?_
  rw [pyRange_getElem]
  cases i with
  | zero => simp
  | succ i =>
    rw [List.getElem_cons_succ, pyRange_getElem]
    push_cast; ring

/-- what the vectorised code computes for one scale -/
noncomputable def anaWrap (L Lj Nj L0j : ℤ) (psi : Arr3 ℂ) (j : ℤ) (flm : Arr2 ℂ) : Arr3 ℂ :=
  if Nj ≤ L then anaW L Lj Nj L0j psi j flm else Arr3.of (2 * Nj - 1) Lj (2 * Lj - 1) fun _ _ _ => 0

/-- program equation for `base.analysis` when no scale has more than `L + 2` directions -/
theorem base_analysis_wrap (hT : TopScale jm L lam J) (hL2 : 2 ≤ L) (hN : 1 ≤ N) (hNL : mr = false → N ≤ L + 2) (h0 : 0 ≤ J_min)
    (h1 : J_min < J)
    (E : BaseFFT) (f : Px) (spin : ℤ) (sampling : String) (nside : Option ℤ) (reality scattering : Bool)
    {al : List Px} (hal : construct_f jm E.toShapes L N J_min lam sampling (some (if mr then 1 else 0)) false = .ok al)
    (hsh : ∀ flm, E.sphForward f L spin sampling nside reality = .ok flm → flm.r = L ∧ flm.c = 2 * L - 1)
    {psi : Arr3 ℂ} {phi : Arr1 ℝ}
    (hflt : filters_directional_vectorised jm L N J_min lam spin 0 = .ok (psi, phi)) :
    Base.analysis jm E f L N J_min lam spin 0 sampling nside reality mr scattering = (do
      let flm ← E.sphForward f L spin sampling nside reality
      let w ← (pyRange J_min (J + 1)).mapM fun j => do
        let p ← E.wigInverse (anaWrap L (LN_j L j N lam mr).1 (LN_j L j N lam mr).2.1 (LN_j L j N lam mr).2.2 psi j flm)
          (LN_j L j N lam mr).1 (LN_j L j N lam mr).2.1 (LN_j L j N lam mr).2.2 sampling reality nside
        .ok (if scattering then p.abs else p)
      let s ← E.sphInverse (anaS L (scal_bandlimit L J_min lam mr) phi flm) (scal_bandlimit L J_min lam mr) spin
        sampling nside reality 0
      .ok (w, s)) := by
  have hfit : Fits L N J_min J lam mr psi := by
    rw [filters_directional_vectorised_ok hT hN h0 h1] at hflt
    cases hflt
    intro j _ _
    have b12 := LN_j_Lj_bounds (N := N) hT.hL hT.hlam j mr
    have b34 := LN_j_Nj_bounds hT.hL hT.hlam hN j mr
    by_cases hle : (LN_j L j N lam mr).2.1 ≤ L
    · exact Or.inl hle
    refine Or.inr ⟨hL2, ?_, fun l => ?_⟩
    · cases mr
      · have := hNL rfl; omega
      · have := b34.2.2.2.1 rfl; omega
    · by_cases hin : 0 ≤ j ∧ j < J + 1 ∧ 0 ≤ l ∧ l < L ∧ 0 ≤ 3 * L - 1 - (LN_j L j N lam mr).2.1 ∧
          3 * L - 1 - (LN_j L j N lam mr).2.1 < 2 * L - 1
      · rw [Arr3.of_v _ _ _ _ _ _ _ hin]
        by_contra hne
        have := psiDirOf_support hN hne
        omega
      · exact Arr3.junk _ _ _ _ hin
  rw [base_analysis_eq hT hN h0 h1 E f spin sampling nside reality mr scattering hal hsh hfit hflt]
  unfold specAna
  refine congrArg _ (funext fun flm => ?_)
  refine congrArg (· >>= _) (congrArg (List.mapM · _) (funext fun j => ?_))
  have e : anaW L (LN_j L j N lam mr).1 (LN_j L j N lam mr).2.1 (LN_j L j N lam mr).2.2 (cutPsi L N lam mr psi) j flm =
      anaWrap L (LN_j L j N lam mr).1 (LN_j L j N lam mr).2.1 (LN_j L j N lam mr).2.2 psi j flm := by
    unfold anaWrap
    by_cases hle : (LN_j L j N lam mr).2.1 ≤ L
    · rw [if_pos hle]
      exact (anaW_cut mr psi flm rfl).1 hle
    · rw [if_neg hle]
      exact (anaW_cut mr psi flm rfl).2 (not_le.1 hle)
  rw [e]

/-- when the number of directions at scale `j` exceeds the band-limit -/
theorem C40_when (hL : 1 ≤ L) (hN : 1 ≤ N) (hlam : 1 < lam) (j : ℤ) :
    (L < (LN_j L j N lam true).2.1 ↔ (LN_j L j N lam true).1 = L ∧ L < N ∧ (N - L) % 2 = 1) ∧
    (LN_j L j N lam false).2.1 = N := by
  have h1 := LN_j_Lj_bounds (N := N) hL hlam j true
  have h2 := LN_j_Nj_bounds hL hlam hN j true
  have h3 := h2.2.2.2.1 rfl
  refine ⟨?_, by simp [LN_j]⟩
  constructor
  · intro h
    refine ⟨by omega, by omega, by omega⟩
  · rintro ⟨h, h', h''⟩
    omega

/-- **C40** what `base.analysis` computes for any number of directions (up to `L + 2` without multiresolution): the wavelet
coefficients at scales with `Nj ≤ L`, and zero, for every signal, at scales with more directions than degrees. -/
theorem C40_vectorised (hT : TopScale jm L lam J) (hL2 : 2 ≤ L) (hN : 1 ≤ N) (hNL : mr = false → N ≤ L + 2) (h0 : 0 ≤ J_min)
    (h1 : J_min < J) {E : BaseFFT} {f : Px}
    (hbl : ∀ flm, E.sphForward f L spin sampling nside reality = .ok flm → BL2 L 0 flm)
    (hflt : filters_directional_vectorised jm L N J_min lam spin 0 = .ok (psi, phi)) {w : List Px} {s : Px}
    (h : Base.analysis jm E f L N J_min lam spin 0 sampling nside reality mr false = .ok (w, s)) :
    ∃ flm, E.sphForward f L spin sampling nside reality = .ok flm ∧ ∀ j, J_min ≤ j → j ≤ J → ∀ Lj Nj L0j,
      LN_j L j N lam mr = (Lj, Nj, L0j) → ∃ p, listGet w (j - J_min) = .ok p ∧
        (Nj ≤ L → E.wigInverse (wavCoeffs Lj Nj (fun l n => psi.v j l (L - 1 + n)) flm) Lj Nj L0j sampling reality nside
          = .ok p) ∧
        (L < Nj → E.wigInverse (Arr3.of (2 * Nj - 1) Lj (2 * Lj - 1) fun _ _ _ => 0) Lj Nj L0j sampling reality nside
          = .ok p) := by
  have hal : ∃ al, construct_f jm E.toShapes L N J_min lam sampling (some (if mr then 1 else 0)) false = .ok al := by
    rcases hal : construct_f jm E.toShapes L N J_min lam sampling (some (if mr then 1 else 0)) false with e | al
    · exfalso
      unfold Base.analysis at h
      simp only [hT.hJ, Py.bind_ok, construct_flm_ok hT.hL hT.hlam, construct_flmn_ok hT.hL hN hT.hlam hT.hJ, hal] at h
      cases h
    · exact ⟨al, rfl⟩
  obtain ⟨al, hal⟩ := hal
  rw [base_analysis_wrap hT hL2 hN hNL h0 h1 E f spin sampling nside reality false hal
    (fun flm hf => ⟨(hbl flm hf).r, (hbl flm hf).c⟩) hflt] at h
  obtain ⟨flm, hf, h⟩ := Py.bind_eq_ok.1 h
  obtain ⟨w', hw, h⟩ := Py.bind_eq_ok.1 h
  obtain ⟨s', -, h⟩ := Py.bind_eq_ok.1 h
  cases h
  refine ⟨flm, hf, fun j hj0 hj1 Lj Nj L0j hp => ?_⟩
  obtain ⟨p, hp1, hp2⟩ := mapM_get hw hj0 (show j < J + 1 by omega)
  beta_reduce at hp2
  obtain ⟨q, hq, hp2⟩ := Py.bind_eq_ok.1 hp2
  cases hp2
  rw [hp] at hq
  refine ⟨_, hp1, fun hle => ?_, fun hlt => ?_⟩
  · unfold anaWrap at hq
    rw [if_pos hle, anaW_eq (dir_fltTrunc hT hN (Or.inr (Or.inl hflt)) mr) (hbl flm hf).tri hp] at hq
    simpa using hq
  · unfold anaWrap at hq
    rw [if_neg (by dsimp only; omega)] at hq
    simpa using hq

/-- **C40** `analysis_looped` computes the wavelet coefficients for every `N ≥ 1` -/
theorem C40_looped (hT : TopScale jm L lam J) (hN : 1 ≤ N) (h0 : 0 ≤ J_min) (h1 : J_min < J) {E : BaseFFT} {f : Px}
    {spin0 : ℤ}
    (hbl : ∀ flm, E.sphForward f L spin sampling nside reality = .ok flm → BL2 L 0 flm ∧ (reality = true → Herm2 flm))
    (hflt : filters_directional jm L N J_min lam spin spin0 = .ok (psi, phi)) {w : List Px} {s : Px}
    (h : Base.analysis_looped jm E f L N J_min lam spin spin0 sampling nside reality mr = .ok (w, s)) :
    ∃ flm, E.sphForward f L spin sampling nside reality = .ok flm ∧ ∀ j, J_min ≤ j → j ≤ J → ∀ Lj Nj L0j,
      LN_j L j N lam mr = (Lj, Nj, L0j) → ∃ p, listGet w (j - J_min) = .ok p ∧
        E.wigInverse (wavCoeffs Lj Nj (fun l n => psi.v j l (L - 1 + n)) flm) Lj Nj L0j sampling reality nside = .ok p := by
  have hB : DirBuilt jm L N J_min lam spin spin0 psi phi := Or.inl hflt
  have hal : ∃ al, construct_f jm E.toShapes L N J_min lam sampling nside mr = .ok al := by
    unfold Base.analysis_looped at h
    simp only [hT.hJ, Py.bind_ok, construct_flm_ok hT.hL hT.hlam, construct_flmn_ok hT.hL hN hT.hlam hT.hJ, hflt] at h
    obtain ⟨_, -, h⟩ := Py.bind_eq_ok.1 h
    obtain ⟨_, -, h⟩ := Py.bind_eq_ok.1 h
    obtain ⟨_, -, h⟩ := Py.bind_eq_ok.1 h
    obtain ⟨al, hal, h⟩ := Py.bind_eq_ok.1 h
    exact ⟨al, hal⟩
  obtain ⟨al, hal⟩ := hal
  rw [looped_analysis_eq hT.hJ hT.hL hT.hlam hN h0 (by omega) E f spin spin0 sampling nside reality mr
      hal (dir_fltShape hT hN hB) (dir_fltZero hT hN hB) (fun _ => dir_fltSym hT hN hB)
      (fun flm h => ⟨(hbl flm h).1.tri, fun hr => ((hbl flm h).2 hr).sym (hbl flm h).1.r⟩) hflt] at h
  unfold specAna at h
  obtain ⟨flm, hf, h⟩ := Py.bind_eq_ok.1 h
  obtain ⟨w', hw, h⟩ := Py.bind_eq_ok.1 h
  obtain ⟨s', -, h⟩ := Py.bind_eq_ok.1 h
  cases h
  refine ⟨flm, hf, fun j hj0 hj1 Lj Nj L0j hp => ?_⟩
  obtain ⟨p, hp1, hp2⟩ := mapM_get hw hj0 (show j < J + 1 by omega)
  beta_reduce at hp2
  rw [hp, anaW_eq (dir_fltTrunc hT hN hB mr) (hbl flm hf).1.tri hp] at hp2
  exact ⟨p, hp1, hp2⟩

/-- **C40** and these are not all zero: a component of degree `L - 1` shows up in the looped coefficients at a scale of
full band-limit, where (if `N - L` is odd and positive) the vectorised coefficients are zero -/
theorem C40_nonzero (hT : TopScale jm L lam J) (hL2 : 2 ≤ L) (hN : 1 ≤ N) {k : Arr2 ℝ} (hk : k_lam jm L lam 300 = .ok k)
    (hno : NoOvershoot k) (hs : |spin| ≤ L - 1) (hJm : lam ^ J_min ≤ (L - 1 : ℝ)) {flm : Arr2 ℂ} (hbl : BL2 L 0 flm) {m : ℤ}
    (hf : co2 flm (L - 1) m ≠ 0) (hflt : filters_directional jm L N J_min lam spin 0 = .ok (psi, phi)) :
    ∃ j, J_min ≤ j ∧ j ≤ J ∧ (LN_j L j N lam true).1 = L ∧ ∃ n, co3 (wavCoeffs (LN_j L j N lam true).1
      (LN_j L j N lam true).2.1 (fun l n => psi.v j l (L - 1 + n)) flm) n (L - 1) m ≠ 0 := by
  have hB : DirBuilt jm L N J_min lam spin 0 psi phi := Or.inl hflt
  have hsum := (dir_admissible hT hN hk).2.1 hB hno (L - 1) (by omega) (by omega) hs (by simp; omega)
  rw [if_pos rfl] at hsum
  have hphi : phi.v (L - 1) = 0 := by
    obtain ⟨_, _, hphi, -⟩ := dirBuilt_elim hT hN hB
    rw [hphi, Arr1.of_v _ _ _ ⟨by omega, by omega⟩, phiDir]
    rw [phiAx_eq_zero hT.hlam (by push_cast; exact hJm)]
    simp
  have hex : ∃ j ∈ Finset.Icc J_min J, ∃ i ∈ Finset.Ico 0 (2 * L - 1), psi.v j (L - 1) i ≠ 0 := by
    by_contra hno
    push Not at hno
    unfold frameSum at hsum
    rw [hphi, Finset.sum_eq_zero fun j hj => Finset.sum_eq_zero fun i hi => by rw [hno j hj i hi]; simp] at hsum
    norm_num at hsum
  obtain ⟨j, hj, i, hi, hne⟩ := hex
  rw [Finset.mem_Icc] at hj
  have hF := dir_fltTrunc hT hN hB true
  have e : L - 1 + (i - (L - 1)) = i := by ring
  refine ⟨j, hj.1, hj.2, ?_, i - (L - 1), ?_⟩
  · have := hF.psi j (L - 1) (i - (L - 1))
    rw [e] at this
    have := this hne
    have := LN_j_Lj_bounds (N := N) hT.hL hT.hlam j true
    omega
  · rw [wavCoeffs_co hF hbl.tri (Prod.mk.eta.symm.trans (by rw [Prod.mk.eta]) : LN_j L j N lam true = ((LN_j L j N lam true).1,
      (LN_j L j N lam true).2.1, (LN_j L j N lam true).2.2)), e]
    refine mul_ne_zero ?_ (mul_ne_zero hf (by simpa using hne))
    have : (0 : ℝ) < 8 * Real.pi ^ 2 / (2 * ((L - 1 : ℤ) : ℝ) + 1) := by
      have : (0 : ℝ) ≤ ((L - 1 : ℤ) : ℝ) := by exact_mod_cast (by omega)
      have := Real.pi_pos
      positivity
    exact_mod_cast this.ne'

/-- **C40** without multiresolution and with three or more directions too many, `base.analysis` fails on every signal -/
theorem C40_too_many (hT : TopScale jm L lam J) (hL2 : 2 ≤ L) (hNL : L + 3 ≤ N) (h0 : 0 ≤ J_min)
    (h1 : J_min < J) {E : BaseFFT} {f : Px}
    (hbl : ∀ flm, E.sphForward f L spin sampling nside reality = .ok flm → BL2 L 0 flm) (scattering : Bool) (r : List Px × Px) :
    Base.analysis jm E f L N J_min lam spin 0 sampling nside reality false scattering ≠ .ok r := by
  intro h
  have hL := hT.hL
  have hlam := hT.hlam
  have hN : 1 ≤ N := by omega
  unfold Base.analysis at h
  simp only [hT.hJ, Py.bind_ok, construct_flm_ok hL hlam, construct_flmn_ok hL hN hlam hT.hJ] at h
  obtain ⟨al, -, h⟩ := Py.bind_eq_ok.1 h
  obtain ⟨⟨psi, phi⟩, hflt, h⟩ := Py.bind_eq_ok.1 h
  dsimp only at h
  obtain ⟨hd, hr, hc, -⟩ := dir_shape hT hN (Or.inr (Or.inl hflt))
  rw [wav_lm_ok (show 0 ≤ L by omega) hr, Py.bind_ok] at h
  obtain ⟨flm, hf, h⟩ := Py.bind_eq_ok.1 h
  have hfr := (hbl flm hf).r
  have hfc := (hbl flm hf).c
  obtain ⟨st, hst, -⟩ := Py.bind_eq_ok.1 h
  rw [pyRange_cons (show J_min < J + 1 by omega), List.foldlM_cons] at hst
  obtain ⟨st1, hst, -⟩ := Py.bind_eq_ok.1 hst
  have hLN : LN_j L J_min N lam false = (L, N, 0) := by simp [LN_j, wav_j_bandlimit]
  simp only [hLN, Arr3.of_r, Arr3.of_c] at hst
  rw [sliceAt_ok _ (by omega) (by rw [Arr3.of_d]; omega), Py.bind_ok] at hst
  obtain ⟨e, he, hst⟩ := Py.bind_eq_ok.1 hst
  obtain ⟨a, ha, hst⟩ := Py.bind_eq_ok.1 hst
  obtain ⟨a', ha', hst⟩ := Py.bind_eq_ok.1 hst
  rw [← pyRange_cons (show J_min < J + 1 by omega), listGet_range _ le_rfl (by omega)] at ha
  cases ha
  simp only [hLN] at ha'
  unfold einsum_lm_ln Arr2.slice at he
  obtain ⟨_, -, he⟩ := Py.bind_eq_ok.1 he
  cases he
  unfold Arr3.assign at ha'
  rw [if_neg] at ha'
  · cases ha'
  · rintro ⟨hb, -⟩
    simp only [Arr3.of_d, Arr2.of_c] at hb
    rw [mkSl_all2 rfl hN, mkSl_wrap hL2 hc (by omega)] at hb
    unfold bcast at hb
    dsimp only at hb
    omega

/-- `L = 3`, `N = 4`: the hypotheses of `C40_vectorised`, `C40_looped` and `C40_nonzero` hold together, and the two
analyses of the signal with coefficients `exFlm` differ -/
example : ∃ f w s w' s', Base.analysis j_max Toy.base f 3 4 0 2 0 0 "mw" none true true false = .ok (w, s) ∧
    Base.analysis_looped j_max Toy.base f 3 4 0 2 0 0 "mw" none true true = .ok (w', s') ∧ w ≠ w' := by
  have hT := TopScale.of_j_max (L := 3) (lam := 2) (by norm_num) (by norm_num) j_max_3_2
  obtain ⟨k, hk, hno⟩ := noOvershoot_3_2
  let flm : Arr2 ℂ := Arr2.of 3 5 fun l i => if l = 2 ∧ i = 2 then 1 else 0
  have hco : ∀ l m, co2 flm l m = if l = 2 ∧ m = 0 then 1 else 0 := by
    intro l m
    show (Arr2.of 3 5 _).v l (3 - 1 + m) = _
    by_cases h : 0 ≤ l ∧ l < 3 ∧ 0 ≤ 3 - 1 + m ∧ 3 - 1 + m < 5
    · rw [Arr2.of_v _ _ _ _ _ h]
      by_cases h' : l = 2 ∧ m = 0
      · rw [if_pos h', if_pos (by omega)]
      · rw [if_neg h', if_neg (by omega)]
    · rw [Arr2.junk _ _ _ h, if_neg (by omega)]
  have hbl : BL2 3 0 flm := ⟨rfl, rfl, fun l m h => by
    rw [hco, if_neg]
    rintro ⟨rfl, rfl⟩
    norm_num at h⟩
  have hherm : Herm2 flm := by
    intro l m
    rw [hco, hco]
    by_cases h : l = 2 ∧ m = 0
    · rw [if_pos h, if_pos (by omega), h.2]; simp
    · rw [if_neg h, if_neg (by omega)]; simp
  obtain ⟨f, -, hf⟩ := (exCfg_works (b := .base Toy.base true) (by simp [Toy.IsToy]) true 0).exact.sph 3 flm (by norm_num)
    hbl (fun _ => hherm)
  have hf : Toy.base.sphForward f 3 0 "mw" none true = .ok flm := hf
  obtain ⟨p, -, hb, -⟩ := filters_directional_ok hT (N := 4) (J_min := 0) (by norm_num) (by norm_num) (by norm_num) 0 0
  have hv := filters_directional_vectorised_ok hT (N := 4) (J_min := 0) (by norm_num) (by norm_num) (by norm_num) 0
  have hal : ∀ nside mr, ∃ al, construct_f j_max Toy.base.toShapes 3 4 0 2 "mw" nside mr = .ok al := by
    intro nside mr
    unfold construct_f
    rw [j_max_3_2, Py.bind_ok]
    refine mapM_all_ok fun j _ _ => ?_
    have b1 := LN_j_Lj_bounds (N := 4) (L := 3) (lam := 2) (by norm_num) (by norm_num) j mr
    have b2 := LN_j_Nj_bounds (N := 4) (L := 3) (lam := 2) (by norm_num) (by norm_num) (by norm_num) j mr
    have : f_wav_j Toy.base.toShapes 3 j 4 2 "mw" nside mr = .ok [2 * (LN_j 3 j 4 2 mr).2.1 - 1, (LN_j 3 j 4 2 mr).1,
      2 * (LN_j 3 j 4 2 mr).1 - 1] := rfl
    rw [this, Py.bind_ok]
    unfold Px.zeros
    have h1 : ¬ (2 * (LN_j 3 j 4 2 mr).2.1 - 1 < 0) := by omega
    have h2 : ¬ ((LN_j 3 j 4 2 mr).1 < 0) := by omega
    have h3 : ¬ (2 * (LN_j 3 j 4 2 mr).1 - 1 < 0) := by omega
    simp [h1, h2, h3]
  obtain ⟨al, hal1⟩ := hal (some (if true then 1 else 0)) false
  obtain ⟨al', hal2⟩ := hal none true
  have hsh : ∀ a, Toy.base.sphForward f 3 0 "mw" none true = .ok a → BL2 3 0 a ∧ (true = true → Herm2 a) := by
    intro a ha
    rw [hf] at ha
    cases ha
    exact ⟨hbl, fun _ => hherm⟩
  have hW := base_analysis_wrap hT (mr := true) (by norm_num) (N := 4) (by norm_num) (by rintro ⟨⟩) (le_refl 0) (by norm_num) Toy.base f 0
    "mw" none true false hal1 (fun a ha => ⟨(hsh a ha).1.r, (hsh a ha).1.c⟩) hv
  rw [hf, Py.bind_ok] at hW
  obtain ⟨w, hw⟩ := mapM_all_ok (a := 0) (b := 2 + 1) (m := fun j => do
        let p ← Toy.base.wigInverse (anaWrap 3 (LN_j 3 j 4 2 true).1 (LN_j 3 j 4 2 true).2.1 (LN_j 3 j 4 2 true).2.2
          (Arr3.of (2 + 1) 3 (2 * 3 - 1) fun j l k => psiDir 4 2 |0| j l (k - (3 - 1))) j flm)
          (LN_j 3 j 4 2 true).1 (LN_j 3 j 4 2 true).2.1 (LN_j 3 j 4 2 true).2.2 "mw" true none
        .ok (if false then p.abs else p)) (fun j _ _ => ⟨_, rfl⟩)
  rw [hw, Py.bind_ok] at hW
  have hV := looped_analysis_eq hT.hJ hT.hL hT.hlam (N := 4) (by norm_num) (le_refl 0) (by norm_num) Toy.base f 0 0 "mw" none true true
      hal2 (dir_fltShape hT (by norm_num) (Or.inl hb)) (dir_fltZero hT (by norm_num) (Or.inl hb))
      (fun _ => dir_fltSym hT (by norm_num) (Or.inl hb))
      (fun a h => ⟨(hsh a h).1.tri, fun hr => ((hsh a h).2 hr).sym (hsh a h).1.r⟩) hb
  unfold specAna at hV
  rw [hf, Py.bind_ok] at hV
  obtain ⟨w', hw'⟩ := mapM_all_ok (a := 0) (b := 2 + 1) (m := fun j =>
        Toy.base.wigInverse (anaW 3 (LN_j 3 j 4 2 true).1 (LN_j 3 j 4 2 true).2.1 (LN_j 3 j 4 2 true).2.2
          (Arr3.of (2 + 1) 3 (2 * 3 - 1) fun j l k => psiDirOf 4 p (max |0| |0|) 0 j l (k - (3 - 1))) j flm)
          (LN_j 3 j 4 2 true).1 (LN_j 3 j 4 2 true).2.1 (LN_j 3 j 4 2 true).2.2 "mw" true none) (fun j _ _ => ⟨_, rfl⟩)
  rw [hw', Py.bind_ok] at hV
  refine ⟨f, w, _, w', _, hW, hV, fun heq => ?_⟩
  obtain ⟨j, hj0, hj1, hLj, n, hn⟩ := C40_nonzero hT (J_min := 0) (spin := 0) (by norm_num) (N := 4) (by norm_num) hk hno (by norm_num)
    (by norm_num) hbl (m := 0) (by rw [hco, if_pos (by norm_num)]; exact one_ne_zero) hb
  obtain ⟨a1, -, ha1⟩ := C40_vectorised hT (by norm_num) (by norm_num) (by rintro ⟨⟩) (le_refl 0) (by norm_num) (fun a ha => (hsh a ha).1) hv hW
  obtain ⟨a2, ha2', ha2⟩ := C40_looped hT (by norm_num) (le_refl 0) (by norm_num) hsh hb hV
  rw [hf] at ha2'
  cases ha2'
  obtain ⟨q, hq, -, hq'⟩ := ha1 j hj0 hj1 _ _ _ rfl
  obtain ⟨q', hq2, hq2'⟩ := ha2 j hj0 hj1 _ _ _ rfl
  have := (C40_when (L := 3) (N := 4) (lam := 2) (by norm_num) (by norm_num) (by norm_num) j).1.2 ⟨hLj, by norm_num, by norm_num⟩
  have hq' := hq' this
  rw [heq, hq2] at hq
  cases hq
  rw [← hq2'] at hq'
  have e : Toy.wigInv (Arr3.of _ _ _ fun _ _ _ => 0) _ _ = Toy.wigInv _ _ _ := Except.ok.inj hq'
  apply hn
  have hz : ∀ (d r c k i j : ℤ), (Arr3.of d r c fun _ _ _ => (0 : ℂ)).v k i j = 0 := by
    intro d r c k i j
    by_cases h : 0 ≤ k ∧ k < d ∧ 0 ≤ i ∧ i < r ∧ 0 ≤ j ∧ j < c
    · exact Arr3.of_v _ _ _ _ _ _ _ h
    · exact Arr3.junk _ _ _ _ h
  have := fun k i j => congrFun (congrArg Px.v e) [k, i, j]
  exact (this _ _ _).symm.trans (hz _ _ _ _ _ _)

end

end S2wav
