import Verif.Lemmas.Transform

/-! # Successful runs: what the outputs of analysis transform back to -/

namespace S2wav
open Classical

theorem nth_eq {β : Type} {d x : β} {a j : ℤ} {l : List β} (hj : a ≤ j) (h : listGet l (j - a) = .ok x) : nth d a l j = x := by
  unfold listGet at h
  rw [if_pos (by omega)] at h
  unfold nth
  split at h
  · rename_i y hy; cases h; simp [hy]
  · cases h

theorem mapM_all_ok {β : Type} {a b : ℤ} {m : ℤ → Py β} (h : ∀ j, a ≤ j → j < b → ∃ x, m j = .ok x) :
    ∃ l, (pyRange a b).mapM m = .ok l := by
  by_cases hne : a < b
  · obtain ⟨x0, -⟩ := h a le_rfl hne
    have hm : ∀ j ∈ pyRange a b, m j = .ok (if hj : ∃ x, m j = .ok x then hj.choose else x0) := by
      intro j hj
      rw [mem_pyRange] at hj
      rw [dif_pos (h j hj.1 hj.2)]
      exact (h j hj.1 hj.2).choose_spec
    exact ⟨_, mapM_ok hm⟩
  · rw [pyRange_empty (by omega)]
    exact ⟨[], rfl⟩

theorem listGet_nth {β : Type} {d : β} {a j : ℤ} {l : List β} (hj : a ≤ j) (h : j - a < l.length) :
    listGet l (j - a) = .ok (nth d a l j) := by
  unfold listGet nth
  have : (j - a).toNat < l.length := by omega
  rw [if_pos (by omega), List.getElem?_eq_getElem this]
  rfl

theorem Arr2.map_v {α β : Type} [Zero α] [Zero β] {g : α → β} (a : Arr2 α) (hg : g 0 = 0) (l i : ℤ) :
    (a.map g).v l i = g (a.v l i) := by
  by_cases hi : 0 ≤ l ∧ l < a.r ∧ 0 ≤ i ∧ i < a.c
  · exact Arr2.of_v _ _ _ _ _ hi
  · rw [a.junk _ _ hi, hg]
    exact Arr2.of_out _ _ _ _ _ hi

theorem ofArr2_re {a : Arr2 ℂ} (h : ∀ l i, (a.v l i).im = 0) : (Px.ofArr2 a).re = Px.ofArr2 a := by
  unfold Px.re Px.ofArr2
  congr 1
  funext i
  dsimp only
  split
  · apply Complex.ext
    · simp
    · rw [Complex.ofReal_im, h]
  · simp

section
variable {jm : JMax} {c : Cfg} {J : ℤ} {psi : Arr3 ℂ} {phi : Arr1 ℝ}

theorem Cfg.Valid.Lj_pos (hv : c.Valid jm J) (mr : Bool) (j : ℤ) : 1 ≤ c.Lj mr j ∧ 1 ≤ c.Nj mr j ∧ 0 ≤ c.L0 mr j ∧
    c.Lj mr j ≤ c.L ∧ c.Nj mr j ≤ c.L := by
  have := LN_bounds hv.top.hL hv.hN hv.hNL hv.top.hlam j mr (rfl : LN_j c.L j c.N c.lam mr = (_, _, _))
  exact ⟨this.1, this.2.2.1, this.2.2.2.2, this.2.1, this.2.2.2.1⟩

theorem Cfg.Core.Lj_pos (hv : c.Core jm J) (mr : Bool) (j : ℤ) : 1 ≤ c.Lj mr j ∧ 1 ≤ c.Nj mr j ∧ 0 ≤ c.L0 mr j ∧
    c.Lj mr j ≤ c.L := by
  have := LN_bounds' hv.top.hL hv.hN hv.top.hlam j mr (rfl : LN_j c.L j c.N c.lam mr = (_, _, _))
  exact ⟨this.1, this.2.2.1, this.2.2.2, this.2.1⟩

theorem Cfg.Core.Ls_pos (hv : c.Core jm J) (mr : Bool) : 1 ≤ c.Ls mr ∧ c.Ls mr ≤ c.L :=
  scal_bandlimit_bounds hv.top.hL hv.top.hlam c.J_min mr

theorem Cfg.Valid.Ls_pos (hv : c.Valid jm J) (mr : Bool) : 1 ≤ c.Ls mr ∧ c.Ls mr ≤ c.L :=
  scal_bandlimit_bounds hv.top.hL hv.top.hlam c.J_min mr

/-- the shape checks of `base.py` pass when all shapes are the documented ones -/
theorem shape_check_ok (hv : c.Core jm J) (E : BaseFFT) (mr : Bool) {w : List Px} {s : Px}
    (hl : (w.length : ℤ) = J + 1 - c.J_min) (hs : E.s2 (c.Ls mr) c.sampling c.nside = .ok s.shape)
    (hw : ∀ j, c.J_min ≤ j → j < J + 1 → ∃ p, listGet w (j - c.J_min) = .ok p ∧
      E.so3 (c.Lj mr j) (c.Nj mr j) c.sampling c.nside = .ok p.shape) :
    wavelet_shape_check jm E.toShapes w s c.L c.N c.J_min c.lam c.sampling c.nside mr = .ok () := by
  have hL : f_scal E.toShapes c.L c.J_min c.lam c.sampling c.nside mr = .ok s.shape := by
    rw [← hs]; unfold f_scal Cfg.Ls scal_bandlimit; rfl
  have h1 := hv.h1
  unfold wavelet_shape_check n_wav_scales
  simp only [hv.top.hJ, Py.bind_ok, hL]
  have e1 : (pyAssert ((w.length : ℤ) = J - c.J_min + 1)) = .ok () := by
    unfold pyAssert; rw [if_pos (by omega)]
  have e2 : (pyAssert True) = .ok () := by unfold pyAssert; rw [if_pos trivial]
  rw [e1, e2, Py.bind_ok, Py.bind_ok]
  refine range_loop_eq (fun _ => ()) (by omega) fun j hj0 hj1 => ?_
  obtain ⟨p, hp, hsh⟩ := hw j hj0 hj1
  have : f_wav_j E.toShapes c.L j c.N c.lam c.sampling c.nside mr = .ok p.shape := by
    rw [← hsh]; rfl
  simp only [hp, this, Py.bind_ok]
  exact e2

/-- what is known about the outputs of an analysis -/
structure Ran (b : Backend) (jm : JMax) (c : Cfg) (J : ℤ) (psi : Arr3 ℂ) (phi : Arr1 ℝ) (flm : Arr2 ℂ) (w : List Px)
    (s : Px) : Prop where
  len : (w.length : ℤ) = J + 1 - c.J_min
  scal : (b.engine c).sphF (b.fscal c s) (c.Ls b.mr) = .ok (scalCoeffs (c.Ls b.mr) phi.v flm)
  wav : ∀ j, c.J_min ≤ j → j ≤ J → ∃ p, listGet w (j - c.J_min) = .ok p ∧
    (b.engine c).wigI (wavCoeffs (c.Lj b.mr j) (c.Nj b.mr j) (fun l n => psi.v j l (c.L - 1 + n)) flm)
      (c.Lj b.mr j) (c.Nj b.mr j) (c.L0 b.mr j) = .ok p ∧
    (b.engine c).wigF p (c.Lj b.mr j) (c.Nj b.mr j) (c.L0 b.mr j) =
      .ok (wavCoeffs (c.Lj b.mr j) (c.Nj b.mr j) (fun l n => psi.v j l (c.L - 1 + n)) flm)
  check : b.check jm c w s = .ok ()

theorem Cfg.Filters.wav_bl {mr : Bool} (hG : c.Filters J mr psi phi) {flm : Arr2 ℂ} (hf : BL2 c.L 0 flm) (j : ℤ) :
    BL3 (c.Lj mr j) (c.Nj mr j) (c.L0 mr j) (wavCoeffs (c.Lj mr j) (c.Nj mr j) (fun l n => psi.v j l (c.L - 1 + n)) flm) ∧
    (c.reality = true → Herm2 flm → Herm3 (wavCoeffs (c.Lj mr j) (c.Nj mr j) (fun l n => psi.v j l (c.L - 1 + n)) flm)) := by
  have e : wavCoeffs (c.Lj mr j) (c.Nj mr j) (fun l n => psi.v j l (c.L - 1 + n)) flm = _ :=
    (anaW_eq hG.trunc hf.tri (rfl : LN_j c.L j c.N c.lam mr = (c.Lj mr j, c.Nj mr j, c.L0 mr j))).symm
  rw [e]
  exact ⟨anaW_bl hG.trunc hG.zero hf.tri rfl, fun hr h => anaW_herm hG.trunc (hG.sym hr) hf.tri h rfl⟩

theorem Cfg.Filters.scal_bl {mr : Bool} (hG : c.Filters J mr psi phi) {flm : Arr2 ℂ} (hf : BL2 c.L 0 flm) :
    BL2 (c.Ls mr) c.spin (scalCoeffs (c.Ls mr) phi.v flm) ∧ (Herm2 flm → Herm2 (scalCoeffs (c.Ls mr) phi.v flm)) := by
  rw [← anaS_eq _ hf.r]
  exact ⟨anaS_bl hG.trunc hG.zero hf.tri, fun h => anaS_herm hG.trunc hf.tri h⟩

theorem wavCoeffs_bl (hv : c.Valid jm J) (hB : DirBuilt jm c.L c.N c.J_min c.lam c.spin 0 psi phi) {flm : Arr2 ℂ}
    (hf : BL2 c.L 0 flm) (mr : Bool) (j : ℤ) :
    BL3 (c.Lj mr j) (c.Nj mr j) (c.L0 mr j) (wavCoeffs (c.Lj mr j) (c.Nj mr j) (fun l n => psi.v j l (c.L - 1 + n)) flm) ∧
    (Herm2 flm → Herm3 (wavCoeffs (c.Lj mr j) (c.Nj mr j) (fun l n => psi.v j l (c.L - 1 + n)) flm)) := by
  have hF := dir_fltTrunc hv.top hv.hN hB mr
  have e : wavCoeffs (c.Lj mr j) (c.Nj mr j) (fun l n => psi.v j l (c.L - 1 + n)) flm = _ :=
    (anaW_eq hF hf.tri (rfl : LN_j c.L j c.N c.lam mr = (c.Lj mr j, c.Nj mr j, c.L0 mr j))).symm
  rw [e]
  exact ⟨anaW_bl hF (dir_fltZero hv.top hv.hN hB) hf.tri rfl, fun h => anaW_herm hF (dir_fltSym hv.top hv.hN hB) hf.tri h rfl⟩

theorem scalCoeffs_bl (hv : c.Valid jm J) (hB : DirBuilt jm c.L c.N c.J_min c.lam c.spin 0 psi phi) {flm : Arr2 ℂ}
    (hf : BL2 c.L 0 flm) (mr : Bool) :
    BL2 (c.Ls mr) c.spin (scalCoeffs (c.Ls mr) phi.v flm) ∧ (Herm2 flm → Herm2 (scalCoeffs (c.Ls mr) phi.v flm)) := by
  have hF := dir_fltTrunc hv.top hv.hN hB mr
  rw [← anaS_eq _ hf.r]
  exact ⟨anaS_bl hF (dir_fltZero hv.top hv.hN hB) hf.tri, fun h => anaS_herm hF hf.tri h⟩

/-- analysis with given filters succeeds on every signal the forward transform accepts, and its outputs transform back to
the coefficients -/
theorem Backend.analysisWith_run' (hv : c.Core jm J) (b : Backend) (hR : b.Ready jm c)
    (hE : (b.engine c).Std c.reality) (hX : (b.engine c).Exact c.spin c.reality) (hRT : b.RoundTrip c)
    (hsrc : b.isBase = true → b.filters jm c = .ok (psi, phi)) (hG : c.Filters J b.mr psi phi) (hfit : b.Fits c J psi)
    {f : Px} {flm : Arr2 ℂ} (hf : (b.engine c).sphF f c.L = .ok flm) :
    ∃ w s, b.analysisWith jm c (psi, phi) f = .ok (w, s) ∧ Ran b jm c J (b.cut c psi) phi flm w s := by
  obtain ⟨hbl, hh⟩ := hE.sph f c.L flm hf
  rw [b.analysisWith_formula' hv hR hE hsrc hG hfit f, hf, Py.bind_ok]
  have hW := fun j => hG.cut.wav_bl hbl j
  have hS := hG.scal_bl hbl
  have hLp := hv.Ls_pos b.mr
  have h1 := hv.h1
  have hwX := fun j => hX.wig _ _ _ _ (hv.Lj_pos b.mr j).1 (hv.Lj_pos b.mr j).2.1 (hv.Lj_pos b.mr j).2.2.1 (hW j).1
    (fun hr => (hW j).2 hr (hh hr))
  obtain ⟨w, hw⟩ := mapM_all_ok (a := c.J_min) (b := J + 1) (m := fun j =>
    (b.engine c).wigI (wavCoeffs (c.Lj b.mr j) (c.Nj b.mr j) (fun l n => (b.cut c psi).v j l (c.L - 1 + n)) flm)
      (c.Lj b.mr j) (c.Nj b.mr j) (c.L0 b.mr j)) (fun j _ _ => ⟨_, (hwX j).choose_spec.1⟩)
  have hlen : (w.length : ℤ) = J + 1 - c.J_min := by
    rw [mapM_length hw, length_pyRange]; omega
  have hwav : ∀ j, c.J_min ≤ j → j ≤ J → ∃ p, listGet w (j - c.J_min) = .ok p ∧
      (b.engine c).wigI (wavCoeffs (c.Lj b.mr j) (c.Nj b.mr j) (fun l n => (b.cut c psi).v j l (c.L - 1 + n)) flm)
        (c.Lj b.mr j) (c.Nj b.mr j) (c.L0 b.mr j) = .ok p ∧
      (b.engine c).wigF p (c.Lj b.mr j) (c.Nj b.mr j) (c.L0 b.mr j) =
        .ok (wavCoeffs (c.Lj b.mr j) (c.Nj b.mr j) (fun l n => (b.cut c psi).v j l (c.L - 1 + n)) flm) := by
    intro j hj0 hj1
    obtain ⟨p, hp, hp'⟩ := mapM_get hw hj0 (show j < J + 1 by omega)
    obtain ⟨q, hq, hq'⟩ := hwX j
    have hp' : (b.engine c).wigI _ _ _ _ = .ok p := hp'
    rw [hp'] at hq; cases hq
    exact ⟨p, hp, hp', hq'⟩
  obtain ⟨s, hs, hs'⟩ := hX.sph _ _ hLp.1 hS.1 (fun hr => hS.2 (hh hr))
  rw [hw, Py.bind_ok]
  have fin : ∀ s', b.scalI c (scalCoeffs (c.Ls b.mr) phi.v flm) = .ok s' →
      (b.engine c).sphF (b.fscal c s') (c.Ls b.mr) = .ok (scalCoeffs (c.Ls b.mr) phi.v flm) →
      b.check jm c w s' = .ok () →
      ∃ w s, (b.scalI c (scalCoeffs (c.Ls b.mr) phi.v flm) >>= fun s => .ok (w, s)) = .ok (w, s) ∧
        Ran b jm c J (b.cut c psi) phi flm w s ∧ True := fun s' h1 h2 h3 => ⟨w, s', by rw [h1]; rfl, ⟨hlen, h2, hwav, h3⟩, trivial⟩
  suffices h : ∃ s', b.scalI c (scalCoeffs (c.Ls b.mr) phi.v flm) = .ok s' ∧
      (b.engine c).sphF (b.fscal c s') (c.Ls b.mr) = .ok (scalCoeffs (c.Ls b.mr) phi.v flm) ∧
      b.check jm c w s' = .ok () by
    obtain ⟨s', h1, h2, h3⟩ := h
    exact ⟨w, s', by rw [h1]; rfl, ⟨hlen, h2, hwav, h3⟩⟩
  have dc : (b.engine c).Dc c.spin c.reality → c.Ls b.mr = 1 →
      (b.engine c).sphF (Px.ofArr2 ((scalCoeffs (c.Ls b.mr) phi.v flm).map fun x =>
        x * ((Real.sqrt (1 / (4 * Real.pi)) : ℝ) : ℂ))) (c.Ls b.mr) = .ok (scalCoeffs (c.Ls b.mr) phi.v flm) := by
    intro hd h1
    have hS' := hS
    rw [h1] at hS' ⊢
    exact hd _ hS'.1 (fun hr => hS'.2 (hh hr))
  have hgen : ∀ hd : (b.engine c).Dc c.spin c.reality, b.isBase = false → (∀ p, b.fscal c p = p) →
      (∀ w s, b.check jm c w s = .ok ()) → ∃ s', b.scalI c (scalCoeffs (c.Ls b.mr) phi.v flm) = .ok s' ∧
      (b.engine c).sphF (b.fscal c s') (c.Ls b.mr) = .ok (scalCoeffs (c.Ls b.mr) phi.v flm) ∧
      b.check jm c w s' = .ok () := by
    intro hd hb hfs hck
    unfold Backend.scalI
    by_cases h1 : c.Ls b.mr = 1
    · rw [if_pos ⟨hb, h1⟩]
      exact ⟨_, rfl, by rw [hfs]; exact dc hd h1, hck _ _⟩
    · rw [if_neg (fun h => h1 h.2)]
      exact ⟨s, hs, by rw [hfs]; exact hs', hck _ _⟩
  have hbase : ∀ (E : BaseFFT) (mr : Bool), ShapesMatch E c → b.isBase = true → b.engine c = baseEngine E c → b.mr = mr →
      (∀ p, b.fscal c p = p) →
      (∀ w s, b.check jm c w s = wavelet_shape_check jm E.toShapes w s c.L c.N c.J_min c.lam c.sampling c.nside mr) →
      ∃ s', b.scalI c (scalCoeffs (c.Ls b.mr) phi.v flm) = .ok s' ∧
      (b.engine c).sphF (b.fscal c s') (c.Ls b.mr) = .ok (scalCoeffs (c.Ls b.mr) phi.v flm) ∧
      b.check jm c w s' = .ok () := by
    intro E mr hm hb he hmr hfs hck
    unfold Backend.scalI
    rw [if_neg (by rw [hb]; simp)]
    refine ⟨s, hs, by rw [hfs]; exact hs', ?_⟩
    rw [hck]
    refine shape_check_ok hv E mr hlen ?_ fun j hj0 hj1 => ?_
    · rw [he, hmr] at hs
      exact hm.1 _ _ _ hs
    · obtain ⟨p, hp, hp', -⟩ := hwav j hj0 (by omega)
      rw [he, hmr] at hp'
      exact ⟨p, hp, hm.2 _ _ _ _ _ hp'⟩
  cases b with
  | base E mr => exact hbase E mr hRT rfl rfl rfl (fun _ => rfl) (fun _ _ => rfl)
  | looped E mr => exact hbase E mr hRT.1 rfl rfl rfl (fun _ => rfl) (fun _ _ => rfl)
  | jax E => exact hgen hRT rfl (fun _ => rfl) (fun _ _ => rfl)
  | pre E => exact hgen hRT rfl (fun _ => rfl) (fun _ _ => rfl)
  | torch E => exact hgen hRT rfl (fun _ => rfl) (fun _ _ => rfl)
  | ssht E =>
    obtain ⟨hd, hre⟩ := hRT
    unfold Backend.scalI
    by_cases h1 : c.Ls (Backend.ssht E).mr = 1
    · rw [if_pos ⟨rfl, h1⟩]
      refine ⟨_, rfl, ?_, rfl⟩
      cases hr : c.reality
      · unfold Backend.fscal
        simp only [hr, Bool.false_eq_true, if_false]
        exact dc hd h1
      · have hreal : (Px.ofArr2 ((scalCoeffs (c.Ls (Backend.ssht E).mr) phi.v flm).map fun x =>
            x * ((Real.sqrt (1 / (4 * Real.pi)) : ℝ) : ℂ))).re = Px.ofArr2 ((scalCoeffs (c.Ls (Backend.ssht E).mr) phi.v flm).map fun x =>
            x * ((Real.sqrt (1 / (4 * Real.pi)) : ℝ) : ℂ)) := by
          have hhS := hS.2 (hh hr)
          have hr1 : (scalCoeffs (c.Ls (Backend.ssht E).mr) phi.v flm).r = 1 := h1
          have hc1 : (scalCoeffs (c.Ls (Backend.ssht E).mr) phi.v flm).c = 1 := by
            show 2 * c.Ls (Backend.ssht E).mr - 1 = 1
            omega
          have hreal : ∀ l i, ((scalCoeffs (c.Ls (Backend.ssht E).mr) phi.v flm).v l i).im = 0 := by
            intro l i
            by_cases hi : 0 ≤ l ∧ l < 1 ∧ 0 ≤ i ∧ i < 1
            · have h0 := hhS l 0
              simp only [co2, hr1, neg_zero, zpow_zero, one_mul] at h0
              have : i = 1 - 1 + 0 := by omega
              rw [this]
              exact Complex.conj_eq_iff_im.1 h0.symm
            · rw [Arr2.junk _ _ _ (by rw [hr1, hc1]; exact hi)]; rfl
          exact ofArr2_re fun l i => by rw [Arr2.map_v _ (by simp), Complex.mul_im, hreal]; simp
        unfold Backend.fscal
        simp only [hr, if_true, hreal]
        exact dc hd h1
    · rw [if_neg (fun h => h1 h.2)]
      refine ⟨s, hs, ?_, rfl⟩
      cases hr : c.reality
      · unfold Backend.fscal
        simp only [hr, Bool.false_eq_true, if_false]
        exact hs'
      · unfold Backend.fscal
        simp only [hr, if_true, hre hr _ _ _ hs]
        exact hs'

theorem Backend.analysisWith_run (hv : c.Valid jm J) (b : Backend) (hR : b.Ready jm c)
    (hE : (b.engine c).Std c.reality) (hX : (b.engine c).Exact c.spin c.reality) (hRT : b.RoundTrip c)
    (hsrc : b.isBase = true → b.filters jm c = .ok (psi, phi)) (hG : c.Filters J b.mr psi phi)
    {f : Px} {flm : Arr2 ℂ} (hf : (b.engine c).sphF f c.L = .ok flm) :
    ∃ w s, b.analysisWith jm c (psi, phi) f = .ok (w, s) ∧ Ran b jm c J psi phi flm w s := by
  have := b.analysisWith_run' hv.core hR hE hX hRT hsrc hG (b.fits_valid hv psi) hf
  rwa [b.cut_valid hv] at this

/-- analysis succeeds on every signal the forward transform accepts, and its outputs transform back to the coefficients -/
theorem Backend.analysis_run (hv : c.Valid jm J) (b : Backend) (hR : b.Ready jm c)
    (hE : (b.engine c).Std c.reality) (hX : (b.engine c).Exact c.spin c.reality) (hRT : b.RoundTrip c)
    (hflt : b.filters jm c = .ok (psi, phi)) {f : Px} {flm : Arr2 ℂ} (hf : (b.engine c).sphF f c.L = .ok flm) :
    ∃ w s, b.analysis jm c f = .ok (w, s) ∧ Ran b jm c J psi phi flm w s := by
  rw [b.analysis_eq_with hflt]
  exact b.analysisWith_run hv hR hE hX hRT (fun _ => hflt) (filters_ok hv hflt b.mr) hf

theorem Backend.RoundTrip.nonneg {b : Backend} (h : b.RoundTrip c) (hl : b.isLooped = true) (hr : c.reality = true) :
    (b.engine c).NonnegOnly := by
  cases b
  case looped => exact h.2 hr
  all_goals cases hl

/-- synthesis of the outputs of an analysis multiplies degree `l` by the frame sum of the filters given to both -/
theorem Backend.synthesisWith_run' (hv : c.Core jm J) (b : Backend) (hR : b.Ready jm c)
    (hE : (b.engine c).Std c.reality) (hRT : b.RoundTrip c)
    (hsrc : b.isBase = true → b.filters jm c = .ok (psi, phi)) (hG : c.Filters J b.mr psi phi) (hfit : b.Fits c J psi) {f : Px} {flm : Arr2 ℂ} (hf : (b.engine c).sphF f c.L = .ok flm)
    {w : List Px} {s : Px} (h : Ran b jm c J (b.cut c psi) phi flm w s) :
    b.synthesisWith jm c (psi, phi) w s = (b.engine c).sphI (degMul (frameSum c.J_min J c.L (b.cut c psi) phi) flm) c.L := by
  have hbl := (hE.sph f c.L flm hf).1
  have hF := hG.cut.trunc
  have hs := hG.cut.cols
  rw [b.synthesisWith_spec' hv hR hE (fun hl hr => hRT.nonneg hl hr) hsrc hG.shape hfit, h.check, Py.bind_ok]
  unfold specSyn
  rw [h.scal, Py.bind_ok]
  have hm : (pyRange c.J_min (J + 1)).mapM (fun j => do
      let fw ← listGet w (j - c.J_min)
      (b.engine c).wigF fw (c.Lj b.mr j) (c.Nj b.mr j) (c.L0 b.mr j)) = .ok ((pyRange c.J_min (J + 1)).map fun j =>
      wavCoeffs (c.Lj b.mr j) (c.Nj b.mr j) (fun l n => (b.cut c psi).v j l (c.L - 1 + n)) flm) := by
    refine mapM_ok fun j hj => ?_
    rw [mem_pyRange] at hj
    obtain ⟨p, hp, -, hp'⟩ := h.wav j hj.1 (by omega)
    rw [hp, Py.bind_ok, hp']
  rw [hm, Py.bind_ok, ← anaS_eq _ hbl.r]
  refine congrArg (fun a => (b.engine c).sphI a c.L) ?_
  refine syn_ana hF hs hbl.tri _ fun j hj0 hj1 => ?_
  rw [nth_eq hj0 (listGet_range _ hj0 hj1)]
  exact (anaW_eq hF hbl.tri rfl).symm

theorem Backend.synthesisWith_run (hv : c.Valid jm J) (b : Backend) (hR : b.Ready jm c)
    (hE : (b.engine c).Std c.reality) (hRT : b.RoundTrip c)
    (hsrc : b.isBase = true → b.filters jm c = .ok (psi, phi)) (hG : c.Filters J b.mr psi phi) {f : Px} {flm : Arr2 ℂ} (hf : (b.engine c).sphF f c.L = .ok flm)
    {w : List Px} {s : Px} (h : Ran b jm c J psi phi flm w s) :
    b.synthesisWith jm c (psi, phi) w s = (b.engine c).sphI (degMul (frameSum c.J_min J c.L psi phi) flm) c.L := by
  have := b.synthesisWith_run' hv.core hR hE hRT hsrc hG (b.fits_valid hv psi) hf (w := w) (s := s)
  rw [b.cut_valid hv] at this
  exact this h

/-- synthesis of the outputs of an analysis multiplies degree `l` by the frame sum -/
theorem Backend.synthesis_run (hv : c.Valid jm J) (b : Backend) (hR : b.Ready jm c)
    (hE : (b.engine c).Std c.reality) (hRT : b.RoundTrip c)
    (hflt : b.filters jm c = .ok (psi, phi)) {f : Px} {flm : Arr2 ℂ} (hf : (b.engine c).sphF f c.L = .ok flm)
    {w : List Px} {s : Px} (h : Ran b jm c J psi phi flm w s) :
    b.synthesis jm c w s = (b.engine c).sphI (degMul (frameSum c.J_min J c.L psi phi) flm) c.L := by
  rw [b.synthesis_eq_with hflt]
  exact b.synthesisWith_run hv hR hE hRT (fun _ => hflt) (filters_ok hv hflt b.mr) hf h

/-- every degree-wise multiple of admissible coefficients by 1 where they are not zero is the same -/
theorem degMul_one {L spin : ℤ} {G : ℤ → ℝ} {a : Arr2 ℂ} (ha : BL2 L spin a)
    (hG : ∀ l, 0 ≤ l → l < L → |spin| ≤ l → G l = 1) : degMul G a = a := by
  refine Arr2.ext_co rfl rfl fun l m => ?_
  rw [degMul_co]
  by_cases h0 : co2 a l m = 0
  · rw [h0, mul_zero]
  · have hl : 0 ≤ l ∧ l < L := by
      by_contra hc
      apply h0
      exact a.junk _ _ (by rw [ha.r]; omega)
    rw [hG l hl.1 hl.2 (by by_contra hc; exact h0 (ha.zero l m (Or.inr (by omega))))]
    simp

end

end S2wav
