import Verif.Lemmas.Linear
import Verif.Props.Harmonic

/-! # C27, C28: the transforms are linear -/

namespace S2wav
open Classical

section
variable {jm : JMax} {c : Cfg} {J : ℤ} {b : Backend}

/-- **C27** analysis is linear: over the complex numbers, and over the reals when `reality` is set. -/
theorem C27_analysis_linear (hv : c.Valid jm J) (hR : b.Ready jm c) (hE : (b.engine c).Std c.reality)
    (hL : (b.engine c).Linear c.reality) {a d : ℂ} (hr : c.reality = true → a.im = 0 ∧ d.im = 0) {f g : Px}
    (hfg : f.shape = g.shape) {w w' : List Px} {s s' : Px} (hf : b.analysis jm c f = .ok (w, s))
    (hg : b.analysis jm c g = .ok (w', s')) :
    b.analysis jm c (f.lin a d g) = .ok (List.zipWith (Px.lin a d) w w', s.lin a d s') := by
  obtain ⟨psi, phi, hflt⟩ := filters_exist hv b
  rw [b.analysis_formula hv hR hE hflt] at hf hg ⊢
  obtain ⟨flm, hflm, hf⟩ := Py.bind_eq_ok.1 hf
  obtain ⟨w1, hw1, hf⟩ := Py.bind_eq_ok.1 hf
  obtain ⟨s1, hs1, hf⟩ := Py.bind_eq_ok.1 hf
  obtain ⟨glm, hglm, hg⟩ := Py.bind_eq_ok.1 hg
  obtain ⟨w2, hw2, hg⟩ := Py.bind_eq_ok.1 hg
  obtain ⟨s2, hs2, hg⟩ := Py.bind_eq_ok.1 hg
  cases hf; cases hg
  have b1 := (hE.sph _ _ _ hflm).1
  have b2 := (hE.sph _ _ _ hglm).1
  have er := b1.r.trans b2.r.symm
  have ec := b1.c.trans b2.c.symm
  rw [hL.sphF a d hr f g c.L flm glm hfg hflm hglm, Py.bind_ok, mapM_zip (Px.lin a d) hw1 hw2, Py.bind_ok]
  · have : b.scalI c (scalCoeffs (c.Ls b.mr) phi.v (flm.lin a d glm)) = .ok (s.lin a d s') := by
      rw [scalCoeffs_lin er ec]
      unfold Backend.scalI at hs1 hs2 ⊢
      split_ifs at hs1 hs2 ⊢ with h1
      · cases hs1; cases hs2
        exact congrArg _ (Px.ofArr2_lin rfl rfl)
      · exact hL.sphI a d hr _ _ _ _ _ rfl rfl rfl rfl hs1 hs2
    rw [this]; rfl
  · intro j _ x y hx hy
    rw [wavCoeffs_lin er ec]
    exact hL.wigI a d hr _ _ _ _ _ _ _ rfl rfl rfl rfl rfl rfl hx hy

/-- **C28** synthesis is linear. -/
theorem C28_synthesis_linear (hv : c.Valid jm J) (hR : b.Ready jm c) (hE : (b.engine c).Std c.reality)
    (hN : b.isLooped = true → c.reality = true → (b.engine c).NonnegOnly) (hL : (b.engine c).Linear c.reality)
    {a d : ℂ} (hr : c.reality = true → a.im = 0 ∧ d.im = 0) {w w' : List Px} {s s' f g : Px} (hs : s.shape = s'.shape)
    (hw : w.map Px.shape = w'.map Px.shape) (hf : b.synthesis jm c w s = .ok f) (hg : b.synthesis jm c w' s' = .ok g) :
    b.synthesis jm c (List.zipWith (Px.lin a d) w w') (s.lin a d s') = .ok (f.lin a d g) := by
  obtain ⟨psi, phi, hflt⟩ := filters_exist hv b
  have hlen : w.length = w'.length := by simpa using congrArg List.length hw
  rw [b.synthesis_formula hv hR hE hN hflt] at hf hg ⊢
  obtain ⟨⟨⟩, hck, hf⟩ := Py.bind_eq_ok.1 hf
  obtain ⟨S, hS, hf⟩ := Py.bind_eq_ok.1 hf
  obtain ⟨W, hW, hf⟩ := Py.bind_eq_ok.1 hf
  obtain ⟨⟨⟩, -, hg⟩ := Py.bind_eq_ok.1 hg
  obtain ⟨S', hS', hg⟩ := Py.bind_eq_ok.1 hg
  obtain ⟨W', hW', hg⟩ := Py.bind_eq_ok.1 hg
  have hck' : b.check jm c (List.zipWith (Px.lin a d) w w') (s.lin a d s') = .ok () := by
    have hmap : (List.zipWith (Px.lin a d) w w').map Px.shape = w.map Px.shape := by
      refine List.ext_getElem (by simp [hlen]) fun i h1 h2 => ?_
      simp [Px.lin]
    rw [← hck]
    unfold Backend.check
    cases b
    case base => exact shape_check_congr rfl hmap
    case looped => exact shape_check_congr rfl hmap
    all_goals rfl
  have hfs : b.fscal c (s.lin a d s') = (b.fscal c s).lin a d (b.fscal c s') := by
    unfold Backend.fscal
    cases b
    case ssht =>
      simp only
      split_ifs with h
      · exact Px.lin_re (hr h).1 (hr h).2 _ _
      · rfl
    all_goals rfl
  have hss : (b.fscal c s).shape = (b.fscal c s').shape := by
    unfold Backend.fscal
    cases b
    case ssht =>
      simp only
      split_ifs with h <;> exact hs
    all_goals exact hs
  have b1 := (hE.sph _ _ _ hS).1
  have b2 := (hE.sph _ _ _ hS').1
  rw [hck', Py.bind_ok, hfs, hL.sphF a d hr _ _ _ _ _ hss hS hS', Py.bind_ok, mapM_zip (Arr3.lin a d) hW hW', Py.bind_ok]
  · rw [synCoeffs_lin (a := a) (d := d) (W := nth z3 c.J_min W) (W' := nth z3 c.J_min W') (b1.r.trans b2.r.symm) (b1.c.trans b2.c.symm)]
    · exact hL.sphI a d hr _ _ _ _ _ rfl rfl rfl rfl hf hg
    · intro j hj0 hj1
      obtain ⟨x, hx, hx'⟩ := mapM_get hW hj0 (show j < J + 1 by omega)
      obtain ⟨y, hy, hy'⟩ := mapM_get hW' hj0 (show j < J + 1 by omega)
      obtain ⟨p, -, hx'⟩ := Py.bind_eq_ok.1 hx'
      obtain ⟨q, -, hy'⟩ := Py.bind_eq_ok.1 hy'
      have h1 := hE.wig _ _ _ _ _ hx'
      have h2 := hE.wig _ _ _ _ _ hy'
      have hWl : W.length = W'.length := by rw [mapM_length hW, mapM_length hW']
      rw [nth_eq hj0 hx, nth_eq hj0 hy, nth_eq hj0 (listGet_zip hWl hx hy)]
      exact ⟨rfl, h1.d.trans h2.d.symm, h1.r.trans h2.r.symm, h1.c.trans h2.c.symm⟩
  · intro j hj x y hx hy
    obtain ⟨p, hp, hx⟩ := Py.bind_eq_ok.1 hx
    obtain ⟨q, hq, hy⟩ := Py.bind_eq_ok.1 hy
    have hpq : p.shape = q.shape := by
      rw [mem_pyRange] at hj
      have hget : ∀ {l : List Px} {z : Px}, listGet l (j - c.J_min) = .ok z → (l.map Px.shape)[(j - c.J_min).toNat]? = some z.shape := by
        intro l z hz
        unfold listGet at hz
        rw [if_pos (by omega)] at hz
        rw [List.getElem?_map]
        split at hz
        · rename_i e; cases hz; rw [e]; rfl
        · cases hz
      have h1 := hget hp
      have h2 := hget hq
      rw [hw, h2] at h1
      exact (Option.some.inj h1).symm
    rw [listGet_zip hlen hp hq, Py.bind_ok]
    exact hL.wigF a d hr _ _ _ _ _ _ _ hpq hx hy

/-- two different signals, all six backends: the difference of the analyses is the analysis of the difference -/
example (b : Backend) (hb : Toy.IsToy b) : ∃ (f g : Px) (w w' : List Px) (s s' : Px), f.v [1, 2] ≠ g.v [1, 2] ∧
    b.analysis j_max (exCfg true 0) f = .ok (w, s) ∧ b.analysis j_max (exCfg true 0) g = .ok (w', s') ∧
    b.analysis j_max (exCfg true 0) (f.lin 1 (-1) g) = .ok (List.zipWith (Px.lin 1 (-1)) w w', s.lin 1 (-1) s') := by
  have hw := exCfg_works hb true 0
  obtain ⟨x, hx⟩ : ∃ x, (b.engine (exCfg true 0)).sphF ⟨[3, 5], fun _ => 1⟩ 3 = .ok x := by
    rcases hb with ⟨mr, rfl⟩ | ⟨mr, rfl⟩ | rfl | rfl | rfl | rfl
    case inr.inr.inr.inl =>
      obtain ⟨_, k, hk⟩ := hw.ready
      simp only [Backend.engine, cEngine, hk, Py.bind_ok]; exact ⟨_, rfl⟩
    all_goals exact ⟨_, rfl⟩
  obtain ⟨y, hy⟩ : ∃ x, (b.engine (exCfg true 0)).sphF ⟨[3, 5], fun _ => 2⟩ 3 = .ok x := by
    rcases hb with ⟨mr, rfl⟩ | ⟨mr, rfl⟩ | rfl | rfl | rfl | rfl
    case inr.inr.inr.inl =>
      obtain ⟨_, k, hk⟩ := hw.ready
      simp only [Backend.engine, cEngine, hk, Py.bind_ok]; exact ⟨_, rfl⟩
    all_goals exact ⟨_, rfl⟩
  obtain ⟨w, s, W, S, h, -⟩ := analysis_coeffs_exist hw hx
  obtain ⟨w', s', W', S', h', -⟩ := analysis_coeffs_exist hw hy
  have key := C27_analysis_linear hw.valid hw.ready hw.std (Toy.linear hb hw.ready) (a := 1) (d := -1)
    (fun _ => by simp) (f := ⟨[3, 5], fun _ => 1⟩) (g := ⟨[3, 5], fun _ => 2⟩) rfl h h'
  exact ⟨⟨[3, 5], fun _ => 1⟩, ⟨[3, 5], fun _ => 2⟩, w, w', s, s', by norm_num, h, h', key⟩

/-- twice the maps of a signal synthesise to twice the signal -/
example (b : Backend) (hb : Toy.IsToy b) : ∃ (f : Px) (w : List Px) (s : Px), f.v [1, 2] ≠ 0 ∧
    b.synthesis j_max (exCfg true 0) w s = .ok f ∧
    b.synthesis j_max (exCfg true 0) (List.zipWith (Px.lin 1 1) w w) (s.lin 1 1 s) = .ok (f.lin 1 1 f) := by
  have hw := exCfg_works hb true 0
  obtain ⟨k, hk, hno⟩ := noOvershoot_3_2
  have hI : (b.engine (exCfg true 0)).sphI exFlm 3 = .ok (Toy.sphInv true exFlm 3) := by
    rcases hb with ⟨mr, rfl⟩ | ⟨mr, rfl⟩ | rfl | rfl | rfl | rfl
    case inr.inr.inr.inl =>
      obtain ⟨_, k, hk⟩ := hw.ready
      simp only [Backend.engine, cEngine, hk, Py.bind_ok]; rfl
    all_goals rfl
  obtain ⟨w, s, -, h2⟩ := C24_reconstruction hw.valid b hw.ready hw.std hw.exact hw.trip hk hno exFlm_bl
    (fun _ => exFlm_herm) hI
  refine ⟨_, w, s, ?_, h2, C28_synthesis_linear hw.valid hw.ready hw.std (fun hl hr => hw.trip.nonneg hl hr)
    (Toy.linear hb hw.ready) (fun _ => by simp) rfl rfl h2 h2⟩
  show Toy.pixel true exFlm 1 (2 - (3 - 1)) ≠ 0
  have : (2 - (3 - 1) : ℤ) = 0 := by norm_num
  rw [this]
  simp [Toy.pixel, exFlm_co, Toy.kap_ne]

end

end S2wav
