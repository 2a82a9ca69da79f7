import Verif.Props.Harmonic
import Verif.Props.Equiv

/-! # Synthesis of real maps and the `reality` flag (C73) -/

namespace S2wav
open Classical ComplexConjugate

section
variable {jm : JMax} {c : Cfg} {J : ℤ} {psi : Arr3 ℂ} {phi : Arr1 ℝ} {b : Backend} {w : List Px} {s : Px}
  {W : ℤ → Arr3 ℂ} {S : Arr2 ℂ}

/-- synthesis of maps with known coefficients -/
theorem synthesis_of_coeffs (hv : c.Valid jm J) (hR : b.Ready jm c) (hE : (b.engine c).Std c.reality)
    (hN : b.isLooped = true → c.reality = true → (b.engine c).NonnegOnly) (hflt : b.filters jm c = .ok (psi, phi))
    (hc : b.Coeffs c J w s W S) :
    b.synthesis jm c w s = (do
      let _ ← b.check jm c w s
      (b.engine c).sphI (synCoeffs c.L c.J_min J (fun j l n => psi.v j l (c.L - 1 + n)) phi.v W S) c.L) := by
  rw [b.synthesis_formula hv hR hE hN hflt, hc.scal, Py.bind_ok]
  have hm : (pyRange c.J_min (J + 1)).mapM (fun j => do
      let fw ← listGet w (j - c.J_min)
      (b.engine c).wigF fw (c.Lj b.mr j) (c.Nj b.mr j) (c.L0 b.mr j)) = .ok ((pyRange c.J_min (J + 1)).map W) := by
    refine mapM_ok fun j hj => ?_
    rw [mem_pyRange] at hj
    obtain ⟨p, hp, hp'⟩ := hc.wav j hj.1 (by omega)
    rw [hp, Py.bind_ok, hp']
  rw [hm, Py.bind_ok]
  refine congrArg _ (funext fun _ => congrArg (fun a => (b.engine c).sphI a c.L) ?_)
  unfold synCoeffs
  refine Arr2.of_congr fun l i _ _ _ _ => ?_
  congr 1
  refine Finset.sum_congr rfl fun j hj => ?_
  rw [Finset.mem_Icc] at hj
  rw [nth_eq hj.1 (listGet_range _ hj.1 (by omega))]

theorem synCoeffs_herm (hv : c.Valid jm J) (hflt : b.filters jm c = .ok (psi, phi)) 
    (hbS : BL2 (c.Ls b.mr) 0 S) (hbW : ∀ j, c.J_min ≤ j → j ≤ J → BL3 (c.Lj b.mr j) (c.Nj b.mr j) 0 (W j))
    (hS : Herm2 S) (hW : ∀ j, c.J_min ≤ j → j ≤ J → Herm3 (W j)) :
    Herm2 (synCoeffs c.L c.J_min J (fun j l n => psi.v j l (c.L - 1 + n)) phi.v W S) := by
  intro l m
  have hco := (synCoeffs_co hv hflt hbS hbW).1
  have hsym : ∀ j n, psi.v j l (c.L - 1 + -n) = (-1) ^ n * conj (psi.v j l (c.L - 1 + n)) := fun j n =>
    dir_fltSym hv.top hv.hN (filters_built hflt) j l n
  rw [hco, hco, map_add, mul_add, hS l m]
  congr 1
  · rw [map_sum, Finset.mul_sum]
    refine Finset.sum_congr rfl fun j hj => ?_
    rw [Finset.mem_Icc] at hj
    rw [map_sum, Finset.mul_sum]
    refine Finset.sum_bij (fun n _ => -n) (fun n hn => ?_) (fun n _ n' _ h => neg_injective h) (fun n hn => ⟨-n, ?_, neg_neg n⟩)
      (fun n _ => ?_)
    · rw [Finset.mem_Ioo] at hn ⊢; omega
    · rw [Finset.mem_Ioo] at hn ⊢; omega
    · have h1 := hW j hj.1 hj.2 (-n) l m
      have h2 := hsym j (-n)
      rw [neg_neg] at h1 h2
      rw [h1, h2, map_mul, zpow_add₀ (by norm_num)]
      have h3 : ((-1 : ℂ) ^ (-n)) * (-1) ^ (-n) = 1 := by rw [← zpow_add₀ (by norm_num)]; exact Even.neg_one_zpow ⟨-n, rfl⟩
      linear_combination ((-1 : ℂ) ^ m * conj (psi.v j l (c.L - 1 + -n)) * conj (co3 (W j) (-n) l m)) * h3
  · rw [map_mul, Complex.conj_ofReal]; ring

/-- **C73** synthesis of real maps (coefficients with the Hermitian symmetry) is the inverse transform of coefficients with the
Hermitian symmetry, whatever the `reality` flag. -/
theorem C73_real (hw : b.Works jm c J) (hck : b.check jm c w s = .ok ()) (hc : b.Coeffs c J w s W S) (hS : Herm2 S)
    (hW : ∀ j, c.J_min ≤ j → j ≤ J → Herm3 (W j)) :
    ∃ alm, BL2 c.L c.spin alm ∧ Herm2 alm ∧ b.synthesis jm c w s = (b.engine c).sphI alm c.L ∧
      ∃ g, b.synthesis jm c w s = .ok g ∧ (b.engine c).sphF g c.L = .ok alm := by
  obtain ⟨psi, phi, hflt⟩ := filters_exist hw.valid b
  have hbS := (hw.std.sph _ _ _ hc.scal).1
  have hbW : ∀ j, c.J_min ≤ j → j ≤ J → BL3 (c.Lj b.mr j) (c.Nj b.mr j) 0 (W j) := fun j h0 h1 => by
    obtain ⟨p, -, hp⟩ := hc.wav j h0 h1
    exact hw.std.wig _ _ _ _ _ hp
  have e := synthesis_of_coeffs hw.valid hw.ready hw.std (fun a d => hw.trip.nonneg a d) hflt hc
  rw [hck, Py.bind_ok] at e
  have hbl := (synCoeffs_co hw.valid hflt hbS hbW).2
  have hh := synCoeffs_herm hw.valid hflt hbS hbW hS hW
  obtain ⟨g, h1, h2⟩ := hw.exact.sph _ _ hw.valid.top.hL hbl (fun _ => hh)
  exact ⟨_, hbl, hh, e, g, e.trans h1, h2⟩

/-- **C73** the `reality` flag does not change the synthesis of real maps: `c` and `c'` differ in the flag only, s2fft's real
and complex forward transforms give the same coefficients of the maps, and the inverse ones agree on Hermitian
coefficients. -/
theorem C73_reality {c' : Cfg} (hcc : c' = { c with reality := false }) (hr : c.reality = true) (hv : c.Valid jm J)
    (hR : b.Ready jm c) (hR' : b.Ready jm c') (hE : (b.engine c).Std true) (hE' : (b.engine c').Std false)
    (hN : b.isLooped = true → (b.engine c).NonnegOnly) (hc : b.Coeffs c J w s W S) (hc' : b.Coeffs c' J w s W S)
    (hW : ∀ j, c.J_min ≤ j → j ≤ J → Herm3 (W j))
    (hI : ∀ L a, BL2 L c.spin a → Herm2 a → (b.engine c).sphI a L = (b.engine c').sphI a L) :
    b.synthesis jm c w s = b.synthesis jm c' w s := by
  have hv' : c'.Valid jm J := by subst hcc; exact ⟨hv.top, hv.hN, hv.hNL, hv.h0, hv.h1⟩
  have hr' : c'.reality = false := by subst hcc; rfl
  obtain ⟨psi, phi, hflt⟩ := filters_exist hv b
  have hflt' : b.filters jm c' = .ok (psi, phi) := by
    subst hcc; rw [← hflt]; unfold Backend.filters; cases b <;> rfl
  have hS := hE.sph _ _ _ hc.scal
  have hbW : ∀ j, c.J_min ≤ j → j ≤ J → BL3 (c.Lj b.mr j) (c.Nj b.mr j) 0 (W j) := fun j h0 h1 => by
    obtain ⟨p, -, hp⟩ := hc.wav j h0 h1
    exact hE.wig _ _ _ _ _ hp
  have hbl := (synCoeffs_co hv hflt hS.1 hbW).2
  have hh := synCoeffs_herm hv hflt hS.1 hbW (hS.2 rfl) hW
  rw [synthesis_of_coeffs hv hR (hr ▸ hE) (fun a _ => hN a) hflt hc,
    synthesis_of_coeffs hv' hR' (hr' ▸ hE') (fun _ d => by rw [hr'] at d; cases d) hflt' hc', hI _ _ hbl hh]
  subst hcc
  refine congrArg₂ _ ?_ rfl
  unfold Backend.check; cases b <;> rfl

end

/-- the maps of a non-zero real signal, analysed and synthesised with both values of the flag, for all six backends -/
example (b : Backend) (hb : Toy.IsToy b) : ∃ (f : Px) (w : List Px) (s : Px),
    (b.engine (exCfg true 0)).sphF f 3 = .ok exFlm ∧ b.analysis j_max (exCfg true 0) f = .ok (w, s) ∧
    b.synthesis j_max (exCfg true 0) w s = b.synthesis j_max (exCfg false 0) w s ∧
    ∃ g alm, b.synthesis j_max (exCfg true 0) w s = .ok g ∧ (b.engine (exCfg true 0)).sphF g 3 = .ok alm ∧ Herm2 alm := by
  have hw := exCfg_works hb true 0
  have hw' := exCfg_works hb false 0
  obtain ⟨f, hf1, hf⟩ := hw.exact.sph 3 exFlm (by norm_num) exFlm_bl (fun _ => exFlm_herm)
  obtain ⟨g, hg1, hg⟩ := hw'.exact.sph 3 exFlm (by norm_num) exFlm_bl (fun _ => exFlm_herm)
  have hS : ∀ L a, BL2 L 0 a → Herm2 a → (b.engine (exCfg true 0)).sphI a L = (b.engine (exCfg false 0)).sphI a L := by
    intro L a _ ha
    rcases hb with ⟨mr, rfl⟩ | ⟨mr, rfl⟩ | rfl | rfl | rfl | rfl
    case inr.inr.inr.inl =>
      obtain ⟨_, k, hk⟩ := hw.ready
      obtain ⟨_, k', hk'⟩ := hw'.ready
      simp only [Backend.engine, cEngine, hk, hk', Py.bind_ok]
      exact congrArg _ (Toy.sphInv_real ha L)
    all_goals exact congrArg _ (Toy.sphInv_real ha L)
  rw [hS 3 exFlm exFlm_bl exFlm_herm, hg1] at hf1
  cases hf1
  have hA := C23_reality (c := exCfg true 0) (c' := exCfg false 0) rfl rfl hw.valid hw.ready hw'.ready hw.std hw'.std hf hg hS
    fun L N L0 t _ _ => by rcases hb with ⟨mr, rfl⟩ | ⟨mr, rfl⟩ | rfl | rfl | rfl | rfl <;> rfl
  obtain ⟨psi, phi, hflt⟩ := filters_exist hw.valid b
  have hflt' : b.filters j_max (exCfg false 0) = .ok (psi, phi) := by
    rw [← hflt]; unfold Backend.filters; cases b <;> rfl
  obtain ⟨w, s, W, S, h, hc⟩ := analysis_coeffs_exist hw hf
  obtain ⟨w', s', W', S', h', hc'⟩ := analysis_coeffs_exist hw' hg
  rw [← hA, h] at h'
  cases h'
  obtain ⟨e1, e2⟩ := analysis_coeffs hw hflt h hc hf
  obtain ⟨e3, e4⟩ := analysis_coeffs hw' hflt' (hA ▸ h) hc' hg
  have eW : ∀ j, 0 ≤ j → j ≤ 2 → W' j = W j := fun j h0 h1 => by rw [e1 j h0 h1, e3 j h0 h1]; rfl
  have eS : S' = S := by rw [e2, e4]; rfl
  have hcc : b.Coeffs (exCfg false 0) 2 w s W S :=
    ⟨hc'.len, fun j h0 h1 => by rw [← eW j h0 h1]; exact hc'.wav j h0 h1, by rw [← eS]; exact hc'.scal⟩
  obtain ⟨hH, hH'⟩ := C52_real hw h hc hf exFlm_herm
  have hck : b.check j_max (exCfg true 0) w s = .ok () := by
    obtain ⟨w1, s1, h1, hr⟩ := b.analysis_run hw.valid hw.ready hw.std hw.exact hw.trip hflt hf
    rw [h] at h1; cases h1
    exact hr.check
  obtain ⟨alm, -, hh, -, g', h1, h2⟩ := C73_real hw hck hc hH' hH
  exact ⟨f, w, s, hf, h, C73_reality rfl rfl hw.valid hw.ready hw'.ready hw.std hw'.std
    (fun a => hw.trip.nonneg a rfl) hc hcc hH hS, g', alm, h1, h2, hh⟩

end S2wav
