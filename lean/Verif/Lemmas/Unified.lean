import Verif.Lemmas.Coeff
import Verif.Usage

/-! # One program equation for all backends -/

namespace S2wav
open Classical

theorem mapM_get {β : Type} {a b : ℤ} {m : ℤ → Py β} {l : List β} (h : (pyRange a b).mapM m = .ok l) {j : ℤ}
    (h1 : a ≤ j) (h2 : j < b) : ∃ x, listGet l (j - a) = .ok x ∧ m j = .ok x := by
  obtain ⟨hl, he⟩ := mapM_eq_ok h
  have hlt : (j - a).toNat < (pyRange a b).length := by rw [length_pyRange]; omega
  have hlt' : (j - a).toNat < l.length := by omega
  refine ⟨l[(j - a).toNat], ?_, ?_⟩
  · unfold listGet
    rw [if_pos (by omega), List.getElem?_eq_getElem hlt']
  · have := he _ hlt hlt'
    rw [pyRange_getElem] at this
    have e : a + ((j - a).toNat : ℤ) = j := by omega
    rwa [e] at this

section
variable {L N J J_min : ℤ} {lam : ℝ} {mr : Bool} {psi : Arr3 ℂ} {phi : Arr1 ℝ}

theorem specAna_congr {fwd fwd' : Py (Arr2 ℂ)} {winv winv' : ℤ → Arr3 ℂ → Py Px} {sinv sinv' : Arr2 ℂ → Py Px}
    (h1 : fwd = fwd') (h2 : ∀ j a, J_min ≤ j → j < J + 1 → winv j a = winv' j a) (h3 : ∀ a, sinv a = sinv' a) :
    specAna fwd winv sinv L N J_min J lam mr psi phi = specAna fwd' winv' sinv' L N J_min J lam mr psi phi := by
  unfold specAna
  rw [h1, show sinv = sinv' from funext h3]
  congr 1
  funext flm
  congr 1
  refine mapM_congr' fun j hj => ?_
  rw [mem_pyRange] at hj
  exact h2 j _ hj.1 hj.2

theorem specSyn_congr {sfwd sfwd' : Py (Arr2 ℂ)} {wfwd wfwd' : ℤ → Py (Arr3 ℂ)} {inv inv' : Arr2 ℂ → Py Px}
    (h1 : sfwd = sfwd') (h2 : ∀ j, J_min ≤ j → j < J + 1 → wfwd j = wfwd' j) (h3 : ∀ a, inv a = inv' a) :
    specSyn sfwd wfwd inv L N J_min J lam mr psi phi = specSyn sfwd' wfwd' inv' L N J_min J lam mr psi phi := by
  unfold specSyn
  rw [h1, show inv = inv' from funext h3]
  congr 1
  funext s
  congr 1
  refine mapM_congr' fun j hj => ?_
  rw [mem_pyRange] at hj
  exact h2 j hj.1 hj.2

/-- the top scale and the one below have the same band-limits -/
theorem LN_top {jm : JMax} (hT : TopScale jm L lam J) (N : ℤ) :
    (LN_j L J N lam true).1 = (LN_j L (J - 1) N lam true).1 ∧
    (LN_j L J N lam true).2.1 = (LN_j L (J - 1) N lam true).2.1 := by
  have hb : ∀ j, J - 1 ≤ j → wav_j_bandlimit L j lam true = L := by
    intro j hj
    unfold wav_j_bandlimit
    simp only [if_true]
    apply min_eq_right
    have : ((L - 1 : ℤ) : ℝ) < lam ^ ((if j = 0 then j + 1 else j) + 1) :=
      (hT.edge (by omega)).trans_le (zpow_mono' hT.hlam (by split_ifs <;> omega))
    have := Int.lt_ceil.2 this
    omega
  have e1 : (LN_j L J N lam true).1 = L := by rw [LN_j_Lj, hb _ (by omega)]
  have e2 : (LN_j L (J - 1) N lam true).1 = L := by rw [LN_j_Lj, hb _ le_rfl]
  refine ⟨by rw [e1, e2], ?_⟩
  have e : ∀ j, (LN_j L j N lam true).2.1 = min N (LN_j L j N lam true).1 + (min N (LN_j L j N lam true).1 + N) % 2 := by
    intro j; rfl
  rw [e, e, e1, e2]

end

section
variable {jm : JMax} {c : Cfg} {J : ℤ} {psi : Arr3 ℂ} {phi : Arr1 ℝ}

theorem filters_built {b : Backend} (h : b.filters jm c = .ok (psi, phi)) :
    DirBuilt jm c.L c.N c.J_min c.lam c.spin 0 psi phi := by
  cases b
  case looped => exact Or.inl h
  all_goals exact Or.inr (Or.inl h)

theorem Cfg.Filters.shape {mr : Bool} (h : c.Filters J mr psi phi) : FltShape c.L J psi phi := ⟨h.d, h.r, h.cols, h.n⟩

theorem Cfg.Filters.trunc {mr : Bool} (h : c.Filters J mr psi phi) : FltTrunc c.L c.N c.J_min c.lam mr psi phi :=
  ⟨fun j l n hne => ⟨(h.wav j l n hne).1, (h.wav j l n hne).2.1, (h.wav j l n hne).2.2.1, (h.wav j l n hne).2.2.2.1⟩,
    fun l hne => (h.scal l hne).1⟩

theorem Cfg.Filters.zero {mr : Bool} (h : c.Filters J mr psi phi) : FltZero c.L c.spin psi phi :=
  ⟨fun j l n hl => by
    by_contra hne
    have := h.wav j l n hne
    omega, fun l hl => by
    by_contra hne
    have := h.scal l hne
    omega⟩

/-- the filters of a documented call qualify -/
theorem filters_ok' (hv : c.Core jm J) {b : Backend} (h : b.filters jm c = .ok (psi, phi)) (mr : Bool) :
    c.Filters J mr psi phi := by
  have hB := filters_built h
  have hS := dir_shape hv.top hv.hN hB
  have hT := dir_fltTrunc hv.top hv.hN hB mr
  have hZ := dir_fltZero hv.top hv.hN hB
  refine ⟨by omega, hS.2.1, hS.2.2.1, hS.2.2.2, fun j l n hne => ?_, fun l hne => ⟨hT.phi l hne, ?_⟩,
    fun _ => dir_fltSym hv.top hv.hN hB⟩
  · have h1 := hT.psi j l n hne
    refine ⟨h1.1, h1.2.1, h1.2.2.1, h1.2.2.2, ?_, ?_⟩
    · by_contra hc
      exact hne (hZ.psi j l n (Or.inl (by omega)))
    · by_contra hc
      exact hne (hZ.psi j l n (Or.inr (by omega)))
  · by_contra hc
    exact hne (hZ.phi l (by omega))

theorem filters_ok (hv : c.Valid jm J) {b : Backend} (h : b.filters jm c = .ok (psi, phi)) (mr : Bool) :
    c.Filters J mr psi phi := filters_ok' hv.core h mr

/-- the filters a backend effectively uses: the vectorised ones drop the scales with more than `L` directions -/
noncomputable def Backend.cut (b : Backend) (c : Cfg) (psi : Arr3 ℂ) : Arr3 ℂ :=
  if b.isLooped then psi else cutPsi c.L c.N c.lam b.mr psi

theorem Backend.cut_v (b : Backend) (c : Cfg) (psi : Arr3 ℂ) (j l n : ℤ) :
    (b.cut c psi).v j l n = if b.isLooped = true ∨ c.Nj b.mr j ≤ c.L then psi.v j l n else 0 := by
  unfold Backend.cut
  by_cases h : b.isLooped = true
  · rw [if_pos h, if_pos (Or.inl h)]
  · rw [if_neg h, cutPsi_v]
    simp only [h, Bool.false_eq_true, false_or]
    rfl

theorem Backend.cut_valid (hv : c.Valid jm J) (b : Backend) (psi : Arr3 ℂ) : b.cut c psi = psi := by
  unfold Backend.cut
  rw [cutPsi_of_le hv.top.hL hv.hN hv.top.hlam hv.hNL, ite_self]

/-- the configurations a backend can process -/
def Backend.Fits (b : Backend) (c : Cfg) (J : ℤ) (psi : Arr3 ℂ) : Prop :=
  b.isLooped = true ∨ S2wav.Fits c.L c.N c.J_min J c.lam b.mr psi

theorem Backend.fits_valid (hv : c.Valid jm J) (b : Backend) (psi : Arr3 ℂ) : b.Fits c J psi :=
  Or.inr (fits_of_le hv.top.hL hv.hN hv.top.hlam hv.hNL _ _ _ _)

theorem Backend.fits_core (hv : c.Core jm J) (b : Backend) (hL2 : 2 ≤ c.L) (hNL : b.mr = false → c.N ≤ c.L + 2)
    (hG : c.Filters J b.mr psi phi) : b.Fits c J psi := by
  refine Or.inr fun j _ _ => ?_
  by_cases h : (LN_j c.L j c.N c.lam b.mr).2.1 ≤ c.L
  · exact Or.inl h
  · refine Or.inr ⟨hL2, ?_, fun l => ?_⟩
    · have h1 := LN_j_Nj_bounds hv.top.hL hv.top.hlam hv.hN j b.mr
      have h2 := LN_j_Lj_bounds (N := c.N) hv.top.hL hv.top.hlam j b.mr
      cases hmr : b.mr
      · rw [hmr] at h1
        exact h1.2.1.trans (hNL hmr)
      · rw [hmr] at h1 h2
        have := h1.2.2.2.1 rfl
        omega
    · by_contra hne
      have e : 3 * c.L - 1 - (LN_j c.L j c.N c.lam b.mr).2.1 = c.L - 1 + (2 * c.L - c.Nj b.mr j) := by
        unfold Cfg.Nj; ring
      rw [e] at hne
      have := (hG.wav j l _ hne).2.2.2.1
      omega

theorem BL2.triz {L : ℤ} {a : Arr2 ℂ} {s : ℤ} (h : BL2 L s a) : Tri2 L a := h.tri

theorem Herm2.sym {L : ℤ} {a : Arr2 ℂ} (h : Herm2 a) (hr : a.r = L) : Sym2 L a := by
  intro l m
  have := h l m
  rwa [co2, co2, hr, ← sub_eq_add_neg] at this

theorem BL3.tri {L N L0 : ℤ} {t : Arr3 ℂ} (h : BL3 L N L0 t) : Tri3 L N t := by
  refine ⟨h.d, h.r, h.c, fun k l m hl => ?_⟩
  have := h.zero (k - (N - 1)) l m (Or.inr (Or.inl hl))
  have e : (2 * N - 1 - 1) / 2 + (k - (N - 1)) = k := by omega
  rwa [co3, h.d, h.r, e] at this

theorem pre_kernel {KW KS : Type} {E : PreFFT KW KS} (hv : c.Core jm J) {forward : Bool} {pcs : Option KS × Option KS × List KW}
    (h : Construct.generate_full_precomputes jm E c.L c.N c.J_min c.lam c.sampling c.nside forward c.reality false = .ok pcs) :
    (∃ k0, unNone pcs.1 = .ok k0 ∧ E.sphKernel c.L 0 c.reality c.sampling c.nside (!forward) = .ok k0) ∧
    (∃ k1, unNone pcs.2.1 = .ok k1 ∧ E.sphKernel (c.Ls true) 0 c.reality c.sampling c.nside forward = .ok k1) ∧
    (∀ j, c.J_min ≤ j → j < J + 1 → ∃ k, listGet pcs.2.2 (kShift J c.J_min j) = .ok k ∧
      E.wigKernel (c.Lj true j) (c.Nj true j) c.reality c.sampling c.nside forward = .ok k) := by
  unfold Construct.generate_full_precomputes at h
  simp only [hv.top.hJ, Py.bind_ok, Bool.false_eq_true, if_false] at h
  obtain ⟨ks, hks, h⟩ := Py.bind_eq_ok.1 h
  obtain ⟨k1, hk1, h⟩ := Py.bind_eq_ok.1 h
  obtain ⟨k0, hk0, h⟩ := Py.bind_eq_ok.1 h
  cases h
  refine ⟨⟨k0, rfl, hk0⟩, ⟨k1, rfl, hk1⟩, fun j hj0 hj1 => ?_⟩
  have h1 := hv.h1
  unfold kShift Cfg.Lj Cfg.Nj
  by_cases hj : j < J
  · obtain ⟨x, hx, hm⟩ := mapM_get hks hj0 hj
    rw [if_pos hj, add_zero]
    exact ⟨x, hx, hm⟩
  · have hJ : j = J := by omega
    subst hJ
    obtain ⟨x, hx, hm⟩ := mapM_get hks (show c.J_min ≤ j - 1 by omega) (by omega)
    rw [if_neg hj, (LN_top hv.top c.N).1, (LN_top hv.top c.N).2]
    refine ⟨x, ?_, hm⟩
    have e : j - c.J_min + -1 = j - 1 - c.J_min := by ring
    rw [e]; exact hx

theorem jax_kernel {K : Type} {E : JaxFFT K} (hv : c.Core jm J) {forward : Bool} {pcs : List K}
    (h : Construct.generate_wigner_precomputes jm E c.L c.N c.J_min c.lam c.sampling c.nside forward c.reality = .ok pcs) :
    ∀ j, c.J_min ≤ j → j < J + 1 → ∃ k, listGet pcs (j - c.J_min) = .ok k ∧
      E.genWigner (c.Lj true j) (c.Nj true j) c.sampling c.nside forward c.reality (c.L0 true j) = .ok k := by
  unfold Construct.generate_wigner_precomputes at h
  simp only [hv.top.hJ, Py.bind_ok] at h
  exact fun j hj0 hj1 => mapM_get h hj0 hj1

/-- **program equation** of analysis, all backends, with given filters -/
theorem Backend.analysisWith_spec' (hv : c.Core jm J) (b : Backend) (hR : b.Ready jm c)
    (hE : (b.engine c).Std c.reality) (hsrc : b.isBase = true → b.filters jm c = .ok (psi, phi))
    (hF : FltShape c.L J psi phi) (hfit : b.Fits c J psi) (f : Px) :
    b.analysisWith jm c (psi, phi) f = specAna ((b.engine c).sphF f c.L)
      (fun j a => (b.engine c).wigI a (c.Lj b.mr j) (c.Nj b.mr j) (c.L0 b.mr j)) (b.scalI c)
      c.L c.N c.J_min J c.lam b.mr (b.cut c psi) phi := by
  have hT := hv.top
  have h1 := hv.h1
  have hsh : ∀ p L a, (b.engine c).sphF p L = .ok a → a.r = L ∧ a.c = 2 * L - 1 :=
    fun p L a h => ⟨(hE.sph p L a h).1.r, (hE.sph p L a h).1.c⟩
  cases b with
  | base E mr =>
    have hfit := hfit.resolve_left (by simp [Backend.isLooped])
    have hflt := hsrc rfl
    obtain ⟨al, hal⟩ := hR
    refine (base_analysis_eq hT hv.hN hv.h0 hv.h1 E f c.spin c.sampling c.nside c.reality mr false hal
      (fun flm h => hsh f c.L flm h) hfit hflt).trans ?_
    refine specAna_congr rfl (fun j a _ _ => ?_) (fun a => ?_)
    · exact Py.bind_pure _
    · unfold Backend.scalI; rw [if_neg (by simp [Backend.isBase])]; rfl
  | looped E mr =>
    have hflt := hsrc rfl
    have hB := filters_built hflt
    obtain ⟨al, hal⟩ := hR
    refine (looped_analysis_eq hT.hJ hT.hL hT.hlam hv.hN hv.h0 (by omega) E f c.spin 0 c.sampling c.nside c.reality mr
      hal hF (dir_fltZero hT hv.hN hB) (fun _ => dir_fltSym hT hv.hN hB) (fun flm h => ?_) hflt).trans ?_
    · have := hE.sph f c.L flm h
      exact ⟨this.1.tri, fun hr => (this.2 hr).sym this.1.r⟩
    · refine specAna_congr rfl (fun j a _ _ => rfl) (fun a => ?_)
      unfold Backend.scalI; rw [if_neg (by simp [Backend.isBase])]; rfl
  | jax E =>
    have hfit := hfit.resolve_left (by simp [Backend.isLooped])
    obtain ⟨pcs, hpcs⟩ := hR false
    have hk := jax_kernel hv hpcs
    unfold Backend.analysisWith
    simp only [hpcs, Py.bind_ok]
    refine (jax_analysis_eq hT.hJ hT.hL hT.hlam hv.hN hv.h0 (by omega) E f c.spin c.sampling c.nside c.reality
      hF hfit pcs (fun flm h => hsh f c.L flm h)).trans ?_
    refine specAna_congr rfl (fun j a hj0 hj1 => ?_) (fun a => ?_)
    · obtain ⟨k, e1, e2⟩ := hk j hj0 hj1
      simp only [Backend.engine, jaxEngine, Backend.mr, e1, e2, Py.bind_ok]
      rfl
    · unfold scalInv Backend.scalI; simp only [Backend.isBase, true_and, Backend.mr]; rfl
  | ssht E =>
    have hfit := hfit.resolve_left (by simp [Backend.isLooped])
    obtain ⟨hh, k, hk⟩ := hR
    unfold Backend.analysisWith
    refine (c_analysis_eq hT.hJ hT.hL hT.hlam hv.hN hv.h0 (by omega) E f c.spin c.sampling c.reality
      hF hfit hh hk (fun flm h => hsh f c.L flm (by simp only [Backend.engine, cEngine, hk, Py.bind_ok]; exact h))).trans ?_
    refine specAna_congr ?_ (fun j a hj0 hj1 => rfl) (fun a => ?_)
    · simp only [Backend.engine, cEngine, hk, Py.bind_ok]
    · unfold scalInv Backend.scalI; simp only [Backend.isBase, true_and, Backend.mr, Backend.engine, cEngine, hk, Py.bind_ok]; rfl
  | pre E =>
    have hfit := hfit.resolve_left (by simp [Backend.isLooped])
    obtain ⟨pcs, hpcs⟩ := hR false
    obtain ⟨⟨k0, e0, e0'⟩, ⟨k1, e1, e1'⟩, hk⟩ := pre_kernel hv hpcs
    have e0'' : E.sphKernel c.L 0 c.reality c.sampling c.nside true = .ok k0 := e0'
    unfold Backend.analysisWith
    simp only [hpcs, Py.bind_ok]
    refine (pre_analysis_eq hT.hJ hT.hL hT.hlam hv.hN hv.h0 (by omega) E f c.spin c.sampling c.nside c.reality
      hF hfit pcs (fun k flm hk' h => hsh f c.L flm ?_)).trans ?_
    · rw [e0] at hk'; cases hk'
      simp only [Backend.engine, preEngine, e0'', Py.bind_ok]; exact h
    · refine specAna_congr ?_ (fun j a hj0 hj1 => ?_) (fun a => ?_)
      · simp only [Backend.engine, preEngine, e0, e0'', Py.bind_ok]
      · obtain ⟨k, e2, e2'⟩ := hk j hj0 hj1
        simp only [Backend.engine, preEngine, Backend.mr, e2, e2', Py.bind_ok]
        rfl
      · unfold scalInv Backend.scalI
        simp only [Backend.isBase, true_and, Backend.mr, Backend.engine, preEngine, e1, e1', Py.bind_ok]; rfl
  | torch E =>
    have hfit := hfit.resolve_left (by simp [Backend.isLooped])
    obtain ⟨pcs, hpcs⟩ := hR false
    obtain ⟨⟨k0, e0, e0'⟩, ⟨k1, e1, e1'⟩, hk⟩ := pre_kernel hv hpcs
    have e0'' : E.sphKernel c.L 0 c.reality c.sampling c.nside true = .ok k0 := e0'
    unfold Backend.analysisWith
    simp only [hpcs, Py.bind_ok]
    refine (torch_analysis_eq hT.hJ hT.hL hT.hlam hv.hN hv.h0 (by omega) E f c.spin c.sampling c.nside c.reality
      hF hfit pcs (fun k flm hk' h => hsh f c.L flm ?_)).trans ?_
    · rw [e0] at hk'; cases hk'
      simp only [Backend.engine, preEngine, e0'', Py.bind_ok]; exact h
    · refine specAna_congr ?_ (fun j a hj0 hj1 => ?_) (fun a => ?_)
      · simp only [Backend.engine, preEngine, e0, e0'', Py.bind_ok]
      · obtain ⟨k, e2, e2'⟩ := hk j hj0 hj1
        simp only [Backend.engine, preEngine, Backend.mr, e2, e2', Py.bind_ok]
        rfl
      · unfold scalInv Backend.scalI
        simp only [Backend.isBase, true_and, Backend.mr, Backend.engine, preEngine, e1, e1', Py.bind_ok]; rfl

theorem Backend.analysisWith_spec (hv : c.Valid jm J) (b : Backend) (hR : b.Ready jm c)
    (hE : (b.engine c).Std c.reality) (hsrc : b.isBase = true → b.filters jm c = .ok (psi, phi))
    (hF : FltShape c.L J psi phi) (f : Px) :
    b.analysisWith jm c (psi, phi) f = specAna ((b.engine c).sphF f c.L)
      (fun j a => (b.engine c).wigI a (c.Lj b.mr j) (c.Nj b.mr j) (c.L0 b.mr j)) (b.scalI c)
      c.L c.N c.J_min J c.lam b.mr psi phi := by
  rw [b.analysisWith_spec' hv.core hR hE hsrc hF (b.fits_valid hv psi), b.cut_valid hv]

/-- **program equation** of analysis, all backends -/
theorem Backend.analysis_spec (hv : c.Valid jm J) (b : Backend) (hR : b.Ready jm c)
    (hE : (b.engine c).Std c.reality) (hflt : b.filters jm c = .ok (psi, phi)) (f : Px) :
    b.analysis jm c f = specAna ((b.engine c).sphF f c.L)
      (fun j a => (b.engine c).wigI a (c.Lj b.mr j) (c.Nj b.mr j) (c.L0 b.mr j)) (b.scalI c)
      c.L c.N c.J_min J c.lam b.mr psi phi := by
  rw [b.analysis_eq_with hflt]
  exact b.analysisWith_spec hv hR hE (fun _ => hflt) (dir_fltShape hv.top hv.hN (filters_built hflt)) f

/-- **program equation** of synthesis, all backends, with given filters -/
theorem Backend.synthesisWith_spec' (hv : c.Core jm J) (b : Backend) (hR : b.Ready jm c)
    (hE : (b.engine c).Std c.reality) (hN : b.isLooped = true → c.reality = true → (b.engine c).NonnegOnly)
    (hsrc : b.isBase = true → b.filters jm c = .ok (psi, phi)) (hF : FltShape c.L J psi phi) (hfit : b.Fits c J psi) (w : List Px) (s : Px) :
    b.synthesisWith jm c (psi, phi) w s = (b.check jm c w s >>= fun _ =>
      specSyn ((b.engine c).sphF (b.fscal c s) (c.Ls b.mr))
        (fun j => do
          let fw ← listGet w (j - c.J_min)
          (b.engine c).wigF fw (c.Lj b.mr j) (c.Nj b.mr j) (c.L0 b.mr j))
        (fun a => (b.engine c).sphI a c.L) c.L c.N c.J_min J c.lam b.mr (b.cut c psi) phi) := by
  have hT := hv.top
  have h1 := hv.h1
  have hsh : ∀ p L a, (b.engine c).sphF p L = .ok a → a.r = L ∧ a.c = 2 * L - 1 :=
    fun p L a h => ⟨(hE.sph p L a h).1.r, (hE.sph p L a h).1.c⟩
  have hwh : ∀ p L N L0 t, (b.engine c).wigF p L N L0 = .ok t → t.d = 2 * N - 1 ∧ t.r = L ∧ t.c = 2 * L - 1 :=
    fun p L N L0 a h => ⟨(hE.wig p L N L0 a h).d, (hE.wig p L N L0 a h).r, (hE.wig p L N L0 a h).c⟩
  cases b with
  | base E mr =>
    have hfit := hfit.resolve_left (by simp [Backend.isLooped])
    have hflt := hsrc rfl
    exact base_synthesis_eq hT hv.hN hv.h0 hv.h1 E w s c.spin c.sampling c.nside c.reality mr
      (fun a h => hsh s _ a h) (fun j p t h => hwh p _ _ _ t h) hfit hflt
  | looped E mr =>
    have hflt := hsrc rfl
    have hB := filters_built hflt
    refine (looped_synthesis_eq hT.hJ hT.hL hT.hlam hv.hN hv.h0 (by omega) E w s c.spin 0 c.sampling c.nside c.reality mr
      hF (dir_fltZero hT hv.hN hB) (fun a h => (hE.sph s _ a h).1.tri) (fun j p t h => (hE.wig p _ _ _ t h).tri) hflt).trans ?_
    refine congrArg _ (funext fun _ => ?_)
    unfold specSyn
    refine congrArg _ (funext fun a => ?_)
    refine congrArg _ (funext fun t => ?_)
    have key : c.reality = false ∨ (baseEngine E c).NonnegOnly := by
      cases hr : c.reality
      · exact Or.inl rfl
      · exact Or.inr (hN rfl hr)
    rcases key with hr | hr
    · unfold S2 synA
      simp only [hr, synLoopF_false]
      simp only [Backend.engine, baseEngine, hr]
      rfl
    · refine hr c.L _ _ rfl rfl rfl (fun l m hm => ?_)
      rw [co2, co2]
      unfold S2 synA
      change (Arr2.of _ _ _).v l (c.L - 1 + m) = (Arr2.of _ _ _).v l (c.L - 1 + m)
      by_cases hr : 0 ≤ l ∧ l < c.L ∧ 0 ≤ c.L - 1 + m ∧ c.L - 1 + m < 2 * c.L - 1
      · rw [Arr2.of_v _ _ _ _ _ hr, Arr2.of_v _ _ _ _ _ hr, synLoopF_nonneg _ _ _ _ _ _ (by dsimp only; omega)]
        rfl
      · rw [Arr2.of_out _ _ _ _ _ hr, Arr2.of_out _ _ _ _ _ hr]
  | jax E =>
    have hfit := hfit.resolve_left (by simp [Backend.isLooped])
    obtain ⟨pcs, hpcs⟩ := hR true
    have hk := jax_kernel hv hpcs
    unfold Backend.synthesisWith Backend.check
    simp only [hpcs, Py.bind_ok]
    refine (jax_synthesis_eq hT.hJ hT.hL hT.hlam hv.hN hv.h0 (by omega) E w s c.spin c.sampling c.nside c.reality
      hF hfit pcs (fun a h => hsh s _ a h) (fun j p pc t hj0 hj1 hpc h => ?_)).trans ?_
    · obtain ⟨k, e1, e2⟩ := hk j hj0 hj1
      rw [e1] at hpc; cases hpc
      exact hwh p (c.Lj true j) (c.Nj true j) (c.L0 true j) t (by
        simp only [Backend.engine, jaxEngine, e2, Py.bind_ok]; exact h)
    · refine specSyn_congr rfl (fun j hj0 hj1 => ?_) (fun a => rfl)
      obtain ⟨k, e1, e2⟩ := hk j hj0 hj1
      simp only [Backend.engine, jaxEngine, Backend.mr, e1, e2, Py.bind_ok]
      rfl
  | ssht E =>
    have hfit := hfit.resolve_left (by simp [Backend.isLooped])
    obtain ⟨hh, k, hk⟩ := hR
    unfold Backend.synthesisWith Backend.check
    simp only [Py.bind_ok]
    refine (c_synthesis_eq hT.hJ hT.hL hT.hlam hv.hN hv.h0 (by omega) E w s c.spin c.sampling c.reality
      hF hfit hh hk (fun p a h => hsh p _ a (by simp only [Backend.engine, cEngine, hk, Py.bind_ok]; exact h))
      (fun j p t h => hwh p _ _ _ t h)).trans ?_
    refine specSyn_congr ?_ (fun j hj0 hj1 => rfl) (fun a => ?_)
    · simp only [Backend.engine, cEngine, hk, Py.bind_ok, Backend.fscal]; rfl
    · simp only [Backend.engine, cEngine, hk, Py.bind_ok]
  | pre E =>
    have hfit := hfit.resolve_left (by simp [Backend.isLooped])
    obtain ⟨pcs, hpcs⟩ := hR true
    obtain ⟨⟨k0, e0, e0'⟩, ⟨k1, e1, e1'⟩, hk⟩ := pre_kernel hv hpcs
    have e0'' : E.sphKernel c.L 0 c.reality c.sampling c.nside false = .ok k0 := e0'
    unfold Backend.synthesisWith Backend.check
    simp only [hpcs, Py.bind_ok]
    refine (pre_synthesis_eq hT.hJ hT.hL hT.hlam hv.hN hv.h0 (by omega) E w s c.spin c.sampling c.nside c.reality
      hF hfit pcs (fun k a hk' h => hsh s (c.Ls true) a ?_) (fun j p pc t hj0 hj1 hpc h => ?_)).trans ?_
    · rw [e1] at hk'; cases hk'
      simp only [Backend.engine, preEngine, e1', Py.bind_ok]; exact h
    · obtain ⟨k, e1, e2⟩ := hk j hj0 hj1
      rw [e1] at hpc; cases hpc
      exact hwh p (c.Lj true j) (c.Nj true j) (c.L0 true j) t (by
        simp only [Backend.engine, preEngine, e2, Py.bind_ok]; exact h)
    · refine specSyn_congr ?_ (fun j hj0 hj1 => ?_) (fun a => ?_)
      · simp only [Backend.engine, preEngine, e1, e1', Py.bind_ok, Backend.mr, Backend.fscal]; rfl
      · obtain ⟨k, e1, e2⟩ := hk j hj0 hj1
        simp only [Backend.engine, preEngine, Backend.mr, e1, e2, Py.bind_ok]
        rfl
      · simp only [Backend.engine, preEngine, e0, e0'', Py.bind_ok]
  | torch E =>
    have hfit := hfit.resolve_left (by simp [Backend.isLooped])
    obtain ⟨pcs, hpcs⟩ := hR true
    obtain ⟨⟨k0, e0, e0'⟩, ⟨k1, e1, e1'⟩, hk⟩ := pre_kernel hv hpcs
    have e0'' : E.sphKernel c.L 0 c.reality c.sampling c.nside false = .ok k0 := e0'
    unfold Backend.synthesisWith Backend.check
    simp only [hpcs, Py.bind_ok]
    refine (torch_synthesis_eq hT.hJ hT.hL hT.hlam hv.hN hv.h0 (by omega) E w s c.spin c.sampling c.nside c.reality
      hF hfit pcs (fun k a hk' h => hsh s (c.Ls true) a ?_) (fun j p pc t hj0 hj1 hpc h => ?_)).trans ?_
    · rw [e1] at hk'; cases hk'
      simp only [Backend.engine, preEngine, e1', Py.bind_ok]; exact h
    · obtain ⟨k, e1, e2⟩ := hk j hj0 hj1
      rw [e1] at hpc; cases hpc
      exact hwh p (c.Lj true j) (c.Nj true j) (c.L0 true j) t (by
        simp only [Backend.engine, preEngine, e2, Py.bind_ok]; exact h)
    · refine specSyn_congr ?_ (fun j hj0 hj1 => ?_) (fun a => ?_)
      · simp only [Backend.engine, preEngine, e1, e1', Py.bind_ok, Backend.mr, Backend.fscal]; rfl
      · obtain ⟨k, e1, e2⟩ := hk j hj0 hj1
        simp only [Backend.engine, preEngine, Backend.mr, e1, e2, Py.bind_ok]
        rfl
      · simp only [Backend.engine, preEngine, e0, e0'', Py.bind_ok]

theorem Backend.synthesisWith_spec (hv : c.Valid jm J) (b : Backend) (hR : b.Ready jm c)
    (hE : (b.engine c).Std c.reality) (hN : b.isLooped = true → c.reality = true → (b.engine c).NonnegOnly)
    (hsrc : b.isBase = true → b.filters jm c = .ok (psi, phi)) (hF : FltShape c.L J psi phi) (w : List Px) (s : Px) :
    b.synthesisWith jm c (psi, phi) w s = (b.check jm c w s >>= fun _ =>
      specSyn ((b.engine c).sphF (b.fscal c s) (c.Ls b.mr))
        (fun j => do
          let fw ← listGet w (j - c.J_min)
          (b.engine c).wigF fw (c.Lj b.mr j) (c.Nj b.mr j) (c.L0 b.mr j))
        (fun a => (b.engine c).sphI a c.L) c.L c.N c.J_min J c.lam b.mr psi phi) := by
  rw [b.synthesisWith_spec' hv.core hR hE hN hsrc hF (b.fits_valid hv psi), b.cut_valid hv]

/-- **program equation** of synthesis, all backends -/
theorem Backend.synthesis_spec (hv : c.Valid jm J) (b : Backend) (hR : b.Ready jm c)
    (hE : (b.engine c).Std c.reality) (hN : b.isLooped = true → c.reality = true → (b.engine c).NonnegOnly)
    (hflt : b.filters jm c = .ok (psi, phi)) (w : List Px) (s : Px) :
    b.synthesis jm c w s = (b.check jm c w s >>= fun _ =>
      specSyn ((b.engine c).sphF (b.fscal c s) (c.Ls b.mr))
        (fun j => do
          let fw ← listGet w (j - c.J_min)
          (b.engine c).wigF fw (c.Lj b.mr j) (c.Nj b.mr j) (c.L0 b.mr j))
        (fun a => (b.engine c).sphI a c.L) c.L c.N c.J_min J c.lam b.mr psi phi) := by
  rw [b.synthesis_eq_with hflt]
  exact b.synthesisWith_spec hv hR hE hN (fun _ => hflt) (dir_fltShape hv.top hv.hN (filters_built hflt)) w s

end

end S2wav
