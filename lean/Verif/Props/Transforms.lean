import Verif.Toy
import Verif.Props.Overshoot

/-! # Properties of the transforms: correctness, reconstruction, equivalence of implementations

All six pairs of routines are covered by one statement each, through `Backend` (`Usage.lean`).  Non-vacuity of the
contracts is shown with the concrete transforms of `Toy.lean`. -/

namespace S2wav
open Classical

/-- a configuration used in the examples -/
noncomputable def exCfg (reality : Bool) (spin : ℤ) : Cfg := ⟨3, 2, 0, 2, spin, "mw", none, reality⟩

theorem exCfg_valid (reality : Bool) (spin : ℤ) : (exCfg reality spin).Valid j_max 2 :=
  ⟨TopScale.of_j_max (by norm_num [exCfg]) (by norm_num [exCfg]) j_max_3_2, by norm_num [exCfg], by norm_num [exCfg],
    by norm_num [exCfg], by norm_num [exCfg]⟩

theorem exCfg_good {b : Backend} (hb : Toy.IsToy b) (reality : Bool) (spin : ℤ) : Toy.Good b j_max (exCfg reality spin) :=
  Toy.good (exCfg_valid reality spin) rfl hb

section
variable {jm : JMax} {c : Cfg} {J : ℤ} {psi : Arr3 ℂ} {phi : Arr1 ℝ}

/-- the filters can be built for any number of directions -/
theorem filters_exist' (hv : c.Core jm J) (b : Backend) : ∃ psi phi, b.filters jm c = .ok (psi, phi) := by
  cases b
  case looped =>
    obtain ⟨p, _, hp, _⟩ := filters_directional_ok hv.top hv.hN hv.h0 hv.h1 c.spin 0
    exact ⟨_, _, hp⟩
  all_goals exact ⟨_, _, filters_directional_vectorised_ok hv.top hv.hN hv.h0 hv.h1 c.spin⟩

/-- the filters of a valid configuration can be built -/
theorem filters_exist (hv : c.Valid jm J) (b : Backend) : ∃ psi phi, b.filters jm c = .ok (psi, phi) :=
  filters_exist' hv.core b

/-- **C47** what analysis computes: `flm` is the harmonic transform of the signal; the wavelet map of scale `j` is the
inverse Wigner transform of `8π²/(2l+1) flm_lm conj(ψ^j_ln)`, the scaling map the inverse transform of
`sqrt(4π/(2l+1)) φ_l flm_lm`; and the finite arrays hold every non-zero coefficient of these formulas. -/
theorem C47_analysis_formula (hv : c.Valid jm J) (b : Backend) (hR : b.Ready jm c)
    (hE : (b.engine c).Std c.reality) (hflt : b.filters jm c = .ok (psi, phi)) (f : Px) :
    b.analysis jm c f = (do
      let flm ← (b.engine c).sphF f c.L
      let w ← (pyRange c.J_min (J + 1)).mapM fun j =>
        (b.engine c).wigI (wavCoeffs (c.Lj b.mr j) (c.Nj b.mr j) (fun l n => psi.v j l (c.L - 1 + n)) flm)
          (c.Lj b.mr j) (c.Nj b.mr j) (c.L0 b.mr j)
      let s ← b.scalI c (scalCoeffs (c.Ls b.mr) phi.v flm)
      .ok (w, s)) ∧
    ∀ flm, (b.engine c).sphF f c.L = .ok flm →
      (∀ j n l m, co3 (wavCoeffs (c.Lj b.mr j) (c.Nj b.mr j) (fun l n => psi.v j l (c.L - 1 + n)) flm) n l m =
        ((8 * Real.pi ^ 2 / (2 * l + 1) : ℝ) : ℂ) * (co2 flm l m * (starRingEnd ℂ) (psi.v j l (c.L - 1 + n)))) ∧
      (∀ l m, co2 (scalCoeffs (c.Ls b.mr) phi.v flm) l m =
        ((Real.sqrt (4 * Real.pi / (2 * l + 1)) * phi.v l : ℝ) : ℂ) * co2 flm l m) := by
  refine ⟨b.analysis_formula hv hR hE hflt f, fun flm hf => ?_⟩
  have hF := dir_fltTrunc hv.top hv.hN (filters_built hflt) b.mr
  have hbl := (hE.sph f c.L flm hf).1.tri
  exact ⟨fun j n l m => wavCoeffs_co hF hbl rfl n l m, fun l m => scalCoeffs_co hF hbl l m⟩

example (b : Backend) (hb : Toy.IsToy b) (f : Px) : ∃ psi phi flm w s, b.filters j_max (exCfg true 0) = .ok (psi, phi) ∧
    (b.engine (exCfg true 0)).sphF f 3 = .ok flm ∧ b.analysis j_max (exCfg true 0) f = .ok (w, s) := by
  have hg := exCfg_good hb true 0
  obtain ⟨psi, phi, hflt⟩ := filters_exist (exCfg_valid true 0) b
  have : ∃ flm, (b.engine (exCfg true 0)).sphF f 3 = .ok flm := by
    rcases hb with ⟨mr, rfl⟩ | ⟨mr, rfl⟩ | rfl | rfl | rfl | rfl
    case inr.inr.inr.inl =>
      obtain ⟨_, k, hk⟩ := hg.ready
      exact ⟨Toy.sphFwd true f 3, by simp only [Backend.engine, cEngine, hk, Py.bind_ok]; rfl⟩
    all_goals exact ⟨_, rfl⟩
  obtain ⟨flm, hf⟩ := this
  obtain ⟨w, s, h, -⟩ := b.analysis_run (exCfg_valid true 0) hg.ready hg.std hg.exact hg.trip hflt hf
  exact ⟨psi, phi, flm, w, s, hflt, hf, h⟩

/-- **C48** what synthesis computes: after the shape checks, the inverse harmonic transform of
`Σ_j Σ_n ψ^j_ln W^j_lmn + sqrt(4π/(2l+1)) φ_l S_lm`, with `W^j`, `S` the forward transforms of the inputs. -/
theorem C48_synthesis_formula (hv : c.Valid jm J) (b : Backend) (hR : b.Ready jm c)
    (hE : (b.engine c).Std c.reality) (hN : b.isLooped = true → c.reality = true → (b.engine c).NonnegOnly)
    (hflt : b.filters jm c = .ok (psi, phi)) (w : List Px) (s : Px) :
    b.synthesis jm c w s = (do
      let _ ← b.check jm c w s
      let S ← (b.engine c).sphF (b.fscal c s) (c.Ls b.mr)
      let W ← (pyRange c.J_min (J + 1)).mapM fun j => do
        let fw ← listGet w (j - c.J_min)
        (b.engine c).wigF fw (c.Lj b.mr j) (c.Nj b.mr j) (c.L0 b.mr j)
      (b.engine c).sphI (synCoeffs c.L c.J_min J (fun j l n => psi.v j l (c.L - 1 + n)) phi.v
        (fun j => W.getD (j - c.J_min).toNat z3) S) c.L) := by
  rw [b.synthesis_formula hv hR hE hN hflt w s]
  simp only [List.getD_eq_getElem?_getD]
  rfl

theorem filters_vec {b : Backend} (hb : b.isLooped = false) :
    b.filters jm c = filters_directional_vectorised jm c.L c.N c.J_min c.lam c.spin 0 := by
  cases b
  case looped => cases hb
  all_goals rfl

theorem frameSum_bounds' (hv : c.Core jm J) {b : Backend} {psi : Arr3 ℂ} {phi : Arr1 ℝ}
    (hflt : b.filters jm c = .ok (psi, phi)) {l : ℤ} (hl0 : 0 ≤ l) (hl1 : l < c.L) (hs : |c.spin| ≤ l) :
    (1 ≤ frameSum c.J_min J c.L psi phi l ∧ frameSum c.J_min J c.L psi phi l ≤ 501 / 500) ∧
    (b.isLooped = false → frameSum c.J_min J c.L psi phi l ≤ 1001 / 1000) := by
  obtain ⟨W, h1, h2, h3, h4⟩ := dir_bounds hv.top hv.hN (filters_built hflt) hl0 hl1 hs (by simpa using hl0)
  rw [add_zero, sub_zero, div_self (by exact_mod_cast (Nat.factorial_pos _).ne')] at h1
  subst h1
  exact ⟨⟨h2, by linarith⟩, fun hb => h4 (Or.inl (by rw [← filters_vec hb]; exact hflt))⟩

theorem frameSum_bounds (hv : c.Valid jm J) {b : Backend} {psi : Arr3 ℂ} {phi : Arr1 ℝ}
    (hflt : b.filters jm c = .ok (psi, phi)) {l : ℤ} (hl0 : 0 ≤ l) (hl1 : l < c.L) (hs : |c.spin| ≤ l) :
    (1 ≤ frameSum c.J_min J c.L psi phi l ∧ frameSum c.J_min J c.L psi phi l ≤ 501 / 500) ∧
    (b.isLooped = false → frameSum c.J_min J c.L psi phi l ≤ 1001 / 1000) := frameSum_bounds' hv.core hflt hl0 hl1 hs

/-- **C24**, **C25** (general form) synthesis after analysis multiplies degree `l` of the signal by a number `G l`: the
column maximum of `k_lam` for the vectorised filters, exactly 1 for all filters when `k_lam` does not overshoot, and always
between 1 and 1.002 (1.001 for the vectorised filters).  Holds for all six pairs of routines and every signal the forward transform accepts. -/
theorem C24_round_trip (hv : c.Valid jm J) (b : Backend) (hR : b.Ready jm c) (hE : (b.engine c).Std c.reality)
    (hX : (b.engine c).Exact c.spin c.reality) (hRT : b.RoundTrip c) {k : Arr2 ℝ} (hk : k_lam jm c.L c.lam 300 = .ok k)
    {f : Px} {flm : Arr2 ℂ} (hf : (b.engine c).sphF f c.L = .ok flm) :
    ∃ w s glm, ∃ G : ℤ → ℝ, b.analysis jm c f = .ok (w, s) ∧ b.synthesis jm c w s = (b.engine c).sphI glm c.L ∧
      glm.r = c.L ∧ glm.c = 2 * c.L - 1 ∧ (∀ l m, co2 glm l m = G l * co2 flm l m) ∧
      (∀ l, 0 ≤ l → l < c.L → |c.spin| ≤ l →
        (1 ≤ G l ∧ G l ≤ 501 / 500) ∧ (b.isLooped = false → IsColMax k c.J_min (J + 1) l (G l) ∧ G l ≤ 1001 / 1000) ∧
          (NoOvershoot k → G l = 1)) ∧
      ∀ l, l < |c.spin| → G l = 0 := by
  obtain ⟨psi, phi, hflt⟩ := filters_exist hv b
  obtain ⟨w, s, h, hran⟩ := b.analysis_run hv hR hE hX hRT hflt hf
  have hbl := (hE.sph f c.L flm hf).1
  have hA := dir_admissible hv.top hv.hN hk (J_min := c.J_min) (spin := c.spin) (spin0 := 0) (psi := psi) (phi := phi)
  refine ⟨w, s, _, _, h, b.synthesis_run hv hR hE hRT hflt hf hran, hbl.r, hbl.c, fun l m => degMul_co _ _ _ _,
    fun l hl0 hl1 hs => ⟨?_, fun hb => ?_, fun hno => ?_⟩, fun l hl => ?_⟩
  · exact (frameSum_bounds hv hflt hl0 hl1 hs).1
  · refine ⟨?_, (frameSum_bounds hv hflt hl0 hl1 hs).2 hb⟩
    rw [filters_vec hb] at hflt
    exact (hA.1 (Or.inl hflt) l hl0 hl1 hs).1
  · exact (hA.2.1 (filters_built hflt) hno l hl0 hl1 hs (by simpa using hl0)).trans (if_pos rfl)
  · exact hA.2.2 (filters_built hflt) l (lt_of_lt_of_le hl (le_max_left _ _))

/-- **C24**, **C25** exact reconstruction: `synthesis(analysis(f)) = f` for every band-limited `f`, for all six pairs of
routines, when `k_lam` does not overshoot. -/
theorem C24_reconstruction (hv : c.Valid jm J) (b : Backend) (hR : b.Ready jm c) (hE : (b.engine c).Std c.reality)
    (hX : (b.engine c).Exact c.spin c.reality) (hRT : b.RoundTrip c) {k : Arr2 ℝ} (hk : k_lam jm c.L c.lam 300 = .ok k)
    (hno : NoOvershoot k) {f : Px} {flm : Arr2 ℂ} (hbl : BL2 c.L c.spin flm) (hh : c.reality = true → Herm2 flm)
    (hf : (b.engine c).sphI flm c.L = .ok f) :
    ∃ w s, b.analysis jm c f = .ok (w, s) ∧ b.synthesis jm c w s = .ok f := by
  obtain ⟨p, hp, hp'⟩ := hX.sph c.L flm hv.top.hL hbl hh
  rw [hf] at hp; cases hp
  obtain ⟨psi, phi, hflt⟩ := filters_exist hv b
  obtain ⟨w, s, h, hran⟩ := b.analysis_run hv hR hE hX hRT hflt hp'
  refine ⟨w, s, h, ?_⟩
  have hA := dir_admissible hv.top hv.hN hk (J_min := c.J_min) (spin := c.spin) (spin0 := 0) (psi := psi) (phi := phi)
  rw [b.synthesis_run hv hR hE hRT hflt hp' hran, degMul_one hbl, hf]
  intro l hl0 hl1 hs
  exact (hA.2.1 (filters_built hflt) hno l hl0 hl1 hs (by simpa using hl0)).trans (if_pos rfl)

/-- **C24** spelled out for `base.analysis`, `base.synthesis` -/
theorem C24_base {E : BaseFFT} {mr : Bool} (hv : c.Valid jm J) (hR : (Backend.base E mr).Ready jm c)
    (hE : (baseEngine E c).Std c.reality) (hX : (baseEngine E c).Exact c.spin c.reality) (hS : ShapesMatch E c)
    {k : Arr2 ℝ} (hk : k_lam jm c.L c.lam 300 = .ok k) (hno : NoOvershoot k) {f : Px} {flm : Arr2 ℂ}
    (hbl : BL2 c.L c.spin flm) (hh : c.reality = true → Herm2 flm)
    (hf : E.sphInverse flm c.L c.spin c.sampling c.nside c.reality 0 = .ok f) :
    ∃ w s, Base.analysis jm E f c.L c.N c.J_min c.lam c.spin 0 c.sampling c.nside c.reality mr false = .ok (w, s) ∧
      Base.synthesis jm E w s c.L c.N c.J_min c.lam c.spin 0 c.sampling c.nside c.reality mr = .ok f :=
  C24_reconstruction hv (.base E mr) hR hE hX hS hk hno hbl hh hf

/-- **C24** spelled out for the looped pair -/
theorem C24_looped {E : BaseFFT} {mr : Bool} (hv : c.Valid jm J) (hR : (Backend.looped E mr).Ready jm c)
    (hE : (baseEngine E c).Std c.reality) (hX : (baseEngine E c).Exact c.spin c.reality) (hS : ShapesMatch E c)
    (hN : c.reality = true → (baseEngine E c).NonnegOnly)
    {k : Arr2 ℝ} (hk : k_lam jm c.L c.lam 300 = .ok k) (hno : NoOvershoot k) {f : Px} {flm : Arr2 ℂ}
    (hbl : BL2 c.L c.spin flm) (hh : c.reality = true → Herm2 flm)
    (hf : E.sphInverse flm c.L c.spin c.sampling c.nside c.reality 0 = .ok f) :
    ∃ w s, Base.analysis_looped jm E f c.L c.N c.J_min c.lam c.spin 0 c.sampling c.nside c.reality mr = .ok (w, s) ∧
      Base.synthesis_looped jm E w s c.L c.N c.J_min c.lam c.spin 0 c.sampling c.nside c.reality mr = .ok f :=
  C24_reconstruction hv (.looped E mr) hR hE hX ⟨hS, hN⟩ hk hno hbl hh hf

/-- **C25** the JAX, C and precompute pairs -/
theorem C25_reconstruction (hv : c.Valid jm J) {b : Backend} (_hb : b.isBase = false) (hR : b.Ready jm c)
    (hE : (b.engine c).Std c.reality) (hX : (b.engine c).Exact c.spin c.reality) (hRT : b.RoundTrip c) {k : Arr2 ℝ}
    (hk : k_lam jm c.L c.lam 300 = .ok k) (hno : NoOvershoot k) {f : Px} {flm : Arr2 ℂ} (hbl : BL2 c.L c.spin flm)
    (hh : c.reality = true → Herm2 flm) (hf : (b.engine c).sphI flm c.L = .ok f) :
    ∃ w s, b.analysis jm c f = .ok (w, s) ∧ b.synthesis jm c w s = .ok f :=
  C24_reconstruction hv b hR hE hX hRT hk hno hbl hh hf

/-- the coefficients `l = 1`, `m = 0`: a band-limited real signal -/
noncomputable def exFlm : Arr2 ℂ := Arr2.of 3 5 fun l i => if l = 1 ∧ i = 2 then 1 else 0

theorem exFlm_bl : BL2 3 0 exFlm := by
  refine ⟨rfl, rfl, fun l m h => ?_⟩
  unfold exFlm
  rw [co2_of]
  rw [abs_zero, lt_abs] at h
  split_ifs <;> first | rfl | omega

theorem exFlm_herm : Herm2 exFlm := by
  intro l m
  unfold exFlm
  rw [co2_of, co2_of]
  by_cases hm : m = 0
  · subst hm; simp only [neg_zero, zpow_zero, one_mul]; split_ifs <;> simp
  · have h1 : ¬ (l = 1 ∧ (3 : ℤ) - 1 + -m = 2) := by omega
    have h2 : ¬ (l = 1 ∧ (3 : ℤ) - 1 + m = 2) := by omega
    rw [if_neg h1, if_neg h2]; simp

theorem exFlm_co : co2 exFlm 1 0 = 1 := by unfold exFlm; rw [co2_of]; norm_num

theorem exCfg_works {b : Backend} (hb : Toy.IsToy b) (reality : Bool) (spin : ℤ) :
    b.Works j_max (exCfg reality spin) 2 :=
  ⟨exCfg_valid reality spin, (exCfg_good hb reality spin).ready, (exCfg_good hb reality spin).std,
    (exCfg_good hb reality spin).exact, (exCfg_good hb reality spin).trip⟩

/-- all six backends, real and complex, on a non-zero signal -/
example (b : Backend) (hb : Toy.IsToy b) (reality : Bool) : ∃ f w s, f.v [1, 2] ≠ 0 ∧
    b.analysis j_max (exCfg reality 0) f = .ok (w, s) ∧ b.synthesis j_max (exCfg reality 0) w s = .ok f := by
  have hg := exCfg_good hb reality 0
  obtain ⟨k, hk, hno⟩ := noOvershoot_3_2
  have hI : (b.engine (exCfg reality 0)).sphI exFlm 3 = .ok (Toy.sphInv reality exFlm 3) := by
    rcases hb with ⟨mr, rfl⟩ | ⟨mr, rfl⟩ | rfl | rfl | rfl | rfl
    case inr.inr.inr.inl =>
      obtain ⟨_, k, hk⟩ := hg.ready
      simp only [Backend.engine, cEngine, hk, Py.bind_ok]; rfl
    all_goals rfl
  obtain ⟨w, s, h1, h2⟩ := C24_reconstruction (exCfg_valid reality 0) b hg.ready hg.std hg.exact hg.trip hk hno
    exFlm_bl (fun _ => exFlm_herm) hI
  refine ⟨_, w, s, ?_, h1, h2⟩
  have h11 : co2 exFlm 1 0 = 1 := by unfold exFlm; rw [co2_of]; norm_num
  have hpix : (Toy.sphInv reality exFlm 3).v [1, 2] = Toy.kap := by
    show Toy.pixel reality exFlm 1 (2 - (3 - 1)) = _
    have : (2 - (3 - 1) : ℤ) = 0 := by norm_num
    rw [this]
    cases reality
    · simp [Toy.pixel, h11]
    · simp [Toy.pixel, h11]
  rw [hpix]
  exact Toy.kap_ne

end

end S2wav
