import Verif.Props.Dyadic
import Verif.Props.Equiv

/-! # C137: the looped round trip with `spin0` in exact arithmetic -/

namespace S2wav
open Classical

section
variable {jm : JMax} {c : Cfg} {J spin0 : ℤ} {psi : Arr3 ℂ} {phi : Arr1 ℝ} {E : BaseFFT} {mr : Bool}

/-- the looped filters of any `spin0` meet the conditions under which the transforms are the closed forms -/
theorem spin_filters_ok (hv : c.Core jm J) (h : filters_directional jm c.L c.N c.J_min c.lam c.spin spin0 = .ok (psi, phi)) (mr : Bool) :
    c.Filters J mr psi phi := by
  have hB : DirBuilt jm c.L c.N c.J_min c.lam c.spin spin0 psi phi := Or.inl h
  have hS := dir_shape hv.top hv.hN hB
  have hT := dir_fltTrunc hv.top hv.hN hB mr
  have hZ := dir_fltZero hv.top hv.hN hB
  refine ⟨by omega, hS.2.1, hS.2.2.1, hS.2.2.2, fun j l n hne => ?_, fun l hne => ⟨hT.phi l hne, ?_⟩,
    fun _ => dir_fltSym hv.top hv.hN hB⟩
  · have h1 := hT.psi j l n hne
    refine ⟨h1.1, h1.2.1, h1.2.2.1, h1.2.2.2, ?_, ?_⟩
    · by_contra hc
      exact hne (hZ.psi j l n (Or.inl (by omega)))
    · by_contra hc
      exact hne (hZ.psi j l n (Or.inr (by omega)))
  · by_contra hc
    exact hne (hZ.phi l (by omega))

/-- analysis and synthesis with the looped filters of any `spin0`: degree `l` is multiplied by the frame sum of these filters -/
theorem spin_run (hv : c.Core jm J) (hR : (Backend.looped E mr).Ready jm c) (hE : (baseEngine E c).Std c.reality)
    (hX : (baseEngine E c).Exact c.spin c.reality) (hRT : (Backend.looped E mr).RoundTrip c) {f : Px} {flm : Arr2 ℂ}
    (hf : E.sphForward f c.L c.spin c.sampling c.nside c.reality = .ok flm)
    (hflt : filters_directional jm c.L c.N c.J_min c.lam c.spin spin0 = .ok (psi, phi)) :
    ∃ w s, Base.analysis_looped jm E f c.L c.N c.J_min c.lam c.spin spin0 c.sampling c.nside c.reality mr = .ok (w, s) ∧
      Base.synthesis_looped jm E w s c.L c.N c.J_min c.lam c.spin spin0 c.sampling c.nside c.reality mr =
        E.sphInverse (degMul (frameSum c.J_min J c.L psi phi) flm) c.L c.spin c.sampling c.nside c.reality 0 := by
  have hG := spin_filters_ok hv hflt mr
  have hT := hv.top
  have h1 := hv.h1
  obtain ⟨hbl, hh⟩ := hE.sph f c.L flm hf
  obtain ⟨al, hal⟩ := hR
  have hWe := fun j => anaW_eq hG.trunc hbl.tri (rfl : LN_j c.L j c.N c.lam mr = (c.Lj mr j, c.Nj mr j, c.L0 mr j)) (j := j)
  have hSe := anaS_eq (phi := phi) (c.Ls mr) hbl.r
  have hW := fun j => hG.wav_bl hbl j
  have hS := hG.scal_bl hbl
  have hwX := fun j => hX.wig _ _ _ _ (hv.Lj_pos mr j).1 (hv.Lj_pos mr j).2.1 (hv.Lj_pos mr j).2.2.1 (hW j).1 (fun hr => (hW j).2 hr (hh hr))
  obtain ⟨w, hw⟩ := mapM_all_ok (a := c.J_min) (b := J + 1) (m := fun j =>
    (baseEngine E c).wigI (wavCoeffs (c.Lj mr j) (c.Nj mr j) (fun l n => psi.v j l (c.L - 1 + n)) flm)
      (c.Lj mr j) (c.Nj mr j) (c.L0 mr j)) (fun j _ _ => ⟨_, (hwX j).choose_spec.1⟩)
  have hlen : (w.length : ℤ) = J + 1 - c.J_min := by
    rw [mapM_length hw, length_pyRange]; omega
  have hwav : ∀ j, c.J_min ≤ j → j < J + 1 → ∃ p, listGet w (j - c.J_min) = .ok p ∧
      (baseEngine E c).wigI (wavCoeffs (c.Lj mr j) (c.Nj mr j) (fun l n => psi.v j l (c.L - 1 + n)) flm)
        (c.Lj mr j) (c.Nj mr j) (c.L0 mr j) = .ok p ∧
      (baseEngine E c).wigF p (c.Lj mr j) (c.Nj mr j) (c.L0 mr j) =
        .ok (wavCoeffs (c.Lj mr j) (c.Nj mr j) (fun l n => psi.v j l (c.L - 1 + n)) flm) := by
    intro j hj0 hj1
    obtain ⟨p, hp, hp'⟩ := mapM_get hw hj0 hj1
    obtain ⟨q, hq, hq'⟩ := hwX j
    have hp' : (baseEngine E c).wigI _ _ _ _ = .ok p := hp'
    rw [hp'] at hq; cases hq
    exact ⟨p, hp, hp', hq'⟩
  obtain ⟨s, hs, hs'⟩ := hX.sph _ _ (hv.Ls_pos mr).1 hS.1 (fun hr => hS.2 (hh hr))
  refine ⟨w, s, ?_, ?_⟩
  · rw [looped_analysis_eq hT.hJ hT.hL hT.hlam hv.hN hv.h0 (by omega) E f c.spin spin0 c.sampling c.nside c.reality mr hal hG.shape hG.zero
      (fun hr => hG.sym hr) (fun flm' h => by
        obtain ⟨a, b⟩ := hE.sph f c.L flm' h
        exact ⟨a.tri, fun hr => (b hr).sym a.r⟩) hflt]
    unfold specAna
    rw [hf, Py.bind_ok]
    have e : (pyRange c.J_min (J + 1)).mapM (fun j => E.wigInverse
        (anaW c.L (LN_j c.L j c.N c.lam mr).1 (LN_j c.L j c.N c.lam mr).2.1 (LN_j c.L j c.N c.lam mr).2.2 psi j flm)
        (LN_j c.L j c.N c.lam mr).1 (LN_j c.L j c.N c.lam mr).2.1 (LN_j c.L j c.N c.lam mr).2.2 c.sampling c.reality c.nside) = .ok w := by
      rw [← hw]
      refine mapM_congr' fun j _ => ?_
      exact congrArg (fun a => (baseEngine E c).wigI a (c.Lj mr j) (c.Nj mr j) (c.L0 mr j)) (hWe j)
    rw [e, Py.bind_ok]
    have e' : E.sphInverse (anaS c.L (scal_bandlimit c.L c.J_min c.lam mr) phi flm) (scal_bandlimit c.L c.J_min c.lam mr) c.spin c.sampling c.nside
        c.reality 0 = .ok s := by
      rw [← hs]
      exact congrArg (fun a => (baseEngine E c).sphI a (c.Ls mr)) hSe
    beta_reduce
    rw [e', Py.bind_ok]
  · rw [looped_synthesis_eq hT.hJ hT.hL hT.hlam hv.hN hv.h0 (by omega) E w s c.spin spin0 c.sampling c.nside c.reality mr hG.shape hG.zero
      (fun a h => (hE.sph s _ a h).1.tri) (fun j p t h => (hE.wig p _ _ _ t h).tri) hflt]
    rw [shape_check_ok hv E mr hlen (hRT.1.1 _ _ _ hs) (fun j a b => by
      obtain ⟨p, hp, hp', -⟩ := hwav j a b
      exact ⟨p, hp, hRT.1.2 _ _ _ _ _ hp'⟩), Py.bind_ok]
    have es : E.sphForward s (scal_bandlimit c.L c.J_min c.lam mr) c.spin c.sampling c.nside c.reality = .ok (scalCoeffs (c.Ls mr) phi.v flm) := hs'
    rw [es, Py.bind_ok]
    have hm : (pyRange c.J_min (J + 1)).mapM (fun j => do
        let fw ← listGet w (j - c.J_min)
        E.wigForward fw (LN_j c.L j c.N c.lam mr).1 (LN_j c.L j c.N c.lam mr).2.1 (LN_j c.L j c.N c.lam mr).2.2 c.sampling c.reality c.nside) =
        .ok ((pyRange c.J_min (J + 1)).map fun j =>
        wavCoeffs (c.Lj mr j) (c.Nj mr j) (fun l n => psi.v j l (c.L - 1 + n)) flm) := by
      refine mapM_ok fun j hj => ?_
      rw [mem_pyRange] at hj
      obtain ⟨p, hp, -, hp'⟩ := hwav j hj.1 hj.2
      rw [hp, Py.bind_ok]
      exact hp'
    rw [hm, Py.bind_ok, ← hSe]
    have hsyn := syn_ana (J := J) hG.trunc hG.cols hbl.tri (nth z3 c.J_min ((pyRange c.J_min (J + 1)).map fun j =>
        wavCoeffs (c.Lj mr j) (c.Nj mr j) (fun l n => psi.v j l (c.L - 1 + n)) flm)) (fun j a b => by
      rw [nth_eq a (listGet_range _ a b)]
      exact (hWe j).symm)
    rw [← hsyn]
    have key : c.reality = false ∨ (baseEngine E c).NonnegOnly := by
      cases hr : c.reality
      · exact Or.inl rfl
      · exact Or.inr (hRT.2 hr)
    rcases key with hr | hr
    · unfold S2 synA
      simp only [hr, synLoopF_false]
      rfl
    · refine hr c.L _ _ rfl rfl rfl (fun l m hm => ?_)
      rw [co2, co2]
      unfold S2 synA
      change (Arr2.of _ _ _).v l (c.L - 1 + m) = (Arr2.of _ _ _).v l (c.L - 1 + m)
      by_cases hr : 0 ≤ l ∧ l < c.L ∧ 0 ≤ c.L - 1 + m ∧ c.L - 1 + m < 2 * c.L - 1
      · rw [Arr2.of_v _ _ _ _ _ hr, Arr2.of_v _ _ _ _ _ hr, synLoopF_nonneg _ _ _ _ _ _ (by dsimp only; omega)]
        rfl
      · rw [Arr2.of_out _ _ _ _ _ hr, Arr2.of_out _ _ _ _ _ hr]

/-- **C137** `analysis_looped` and then `synthesis_looped` with any `spin0`, any number of directions, whenever the generating function does not
exceed 1: nothing is raised, and every coefficient of degree `l` handed to the last transform is that of the signal times
`(l + spin0)! / (l - spin0)!`; degrees below `max |spin| |spin0|` are set to zero. -/
theorem C137_round_trip (hv : c.Core jm J) (hR : (Backend.looped E mr).Ready jm c) (hE : (baseEngine E c).Std c.reality)
    (hX : (baseEngine E c).Exact c.spin c.reality) (hRT : (Backend.looped E mr).RoundTrip c) {k : Arr2 ℝ} (hk : k_lam jm c.L c.lam 300 = .ok k)
    (hno : NoOvershoot k) (spin0 : ℤ) {f : Px} {flm : Arr2 ℂ} (hf : E.sphForward f c.L c.spin c.sampling c.nside c.reality = .ok flm) :
    ∃ w s g, Base.analysis_looped jm E f c.L c.N c.J_min c.lam c.spin spin0 c.sampling c.nside c.reality mr = .ok (w, s) ∧
      Base.synthesis_looped jm E w s c.L c.N c.J_min c.lam c.spin spin0 c.sampling c.nside c.reality mr =
        E.sphInverse g c.L c.spin c.sampling c.nside c.reality 0 ∧ g.r = c.L ∧ g.c = 2 * c.L - 1 ∧
      ∀ l m, co2 g l m = if max |c.spin| |spin0| ≤ l then
        (((l + spin0).toNat.factorial : ℂ) / ((l - spin0).toNat.factorial : ℂ)) * co2 flm l m else 0 := by
  obtain ⟨p, -, hflt, -⟩ := filters_directional_ok hv.top hv.hN hv.h0 hv.h1 c.spin spin0
  obtain ⟨w, s, h1, h2⟩ := spin_run hv hR hE hX hRT hf hflt
  have hbl := (hE.sph f c.L flm hf).1
  have hA := dir_admissible hv.top hv.hN hk (J_min := c.J_min) (spin := c.spin) (spin0 := spin0)
    (psi := Arr3.of (J + 1) c.L (2 * c.L - 1) fun j l k => psiDirOf c.N p (max |c.spin| |spin0|) spin0 j l (k - (c.L - 1)))
    (phi := Arr1.of c.L (phiDir c.lam c.J_min (max |c.spin| |spin0|) spin0))
  refine ⟨w, s, _, h1, h2, hbl.r, hbl.c, fun l m => ?_⟩
  rw [degMul_co]
  by_cases hl : max |c.spin| |spin0| ≤ l
  · rw [if_pos hl]
    have hl0 : 0 ≤ l := (le_max_of_le_left (abs_nonneg c.spin)).trans hl
    by_cases hl1 : l < c.L
    · rw [hA.2.1 (Or.inl hflt) hno l hl0 hl1 ((le_max_left _ _).trans hl) ((le_max_right _ _).trans hl)]
      by_cases h0 : spin0 = 0
      · subst h0
        rw [if_pos rfl, add_zero, sub_zero, div_self (by exact_mod_cast (Nat.factorial_pos _).ne'), Complex.ofReal_one]
      · rw [if_neg h0]
        push_cast
        rfl
    · rw [co2, flm.junk _ _ (by rw [hbl.r]; omega), mul_zero, mul_zero]
  · rw [if_neg hl, hA.2.2 (Or.inl hflt) l (by omega), Complex.ofReal_zero, zero_mul]

theorem two_mul_factorial_le {l s : ℤ} (h : s ≤ l) (hs : 0 < s) : 2 * (l - s).toNat.factorial ≤ (l + s).toNat.factorial := by
  obtain ⟨n, hn⟩ : ∃ n : ℕ, (l - s).toNat = n := ⟨_, rfl⟩
  have h1 : (n + 2).factorial ≤ (l + s).toNat.factorial := Nat.factorial_le (by omega)
  rw [hn]
  refine le_trans ?_ h1
  rw [Nat.factorial_succ, Nat.factorial_succ]
  have := Nat.factorial_pos n
  nlinarith [Nat.zero_le (n * n.factorial)]

/-- **C137** so with `spin0 ≠ 0` no coefficient but 0 comes back: a positive `spin0` at least doubles it, a negative one at least halves it -/
theorem C137_not_identity (hv : c.Core jm J) (hR : (Backend.looped E mr).Ready jm c) (hE : (baseEngine E c).Std c.reality)
    (hX : (baseEngine E c).Exact c.spin c.reality) (hRT : (Backend.looped E mr).RoundTrip c) {k : Arr2 ℝ} (hk : k_lam jm c.L c.lam 300 = .ok k)
    (hno : NoOvershoot k) {f : Px} {flm : Arr2 ℂ} (hf : E.sphForward f c.L c.spin c.sampling c.nside c.reality = .ok flm) :
    ∃ w s g, Base.analysis_looped jm E f c.L c.N c.J_min c.lam c.spin spin0 c.sampling c.nside c.reality mr = .ok (w, s) ∧
      Base.synthesis_looped jm E w s c.L c.N c.J_min c.lam c.spin spin0 c.sampling c.nside c.reality mr =
        E.sphInverse g c.L c.spin c.sampling c.nside c.reality 0 ∧
      (∀ l m, l < max |c.spin| |spin0| → co2 g l m = 0) ∧
      (0 < spin0 → ∀ l m, max |c.spin| |spin0| ≤ l → 2 * ‖co2 flm l m‖ ≤ ‖co2 g l m‖) ∧
      (spin0 < 0 → ∀ l m, 2 * ‖co2 g l m‖ ≤ ‖co2 flm l m‖) := by
  obtain ⟨w, s, g, h1, h2, -, -, h3⟩ := C137_round_trip hv hR hE hX hRT hk hno spin0 hf
  have hp : ∀ n : ℕ, (0 : ℝ) < (n.factorial : ℝ) := fun n => by exact_mod_cast Nat.factorial_pos n
  refine ⟨w, s, g, h1, h2, fun l m h => ?_, fun h l m hl => ?_, fun h l m => ?_⟩
  · rw [h3, if_neg (by omega)]
  · rw [h3, if_pos hl, norm_mul, norm_div, Complex.norm_natCast, Complex.norm_natCast]
    refine mul_le_mul_of_nonneg_right ?_ (norm_nonneg _)
    rw [le_div_iff₀ (hp _)]
    have := (le_abs_self spin0).trans ((le_max_right |c.spin| |spin0|).trans hl)
    exact_mod_cast two_mul_factorial_le this h
  · rw [h3]
    by_cases hl : max |c.spin| |spin0| ≤ l
    · rw [if_pos hl, norm_mul, norm_div, Complex.norm_natCast, Complex.norm_natCast, ← mul_assoc]
      refine mul_le_of_le_one_left (norm_nonneg _) ?_
      rw [← mul_div_assoc, div_le_one (hp _)]
      have := (neg_le_abs spin0).trans ((le_max_right |c.spin| |spin0|).trans hl)
      have h4 := two_mul_factorial_le this (by omega)
      rw [sub_neg_eq_add, ← sub_eq_add_neg] at h4
      exact_mod_cast h4
    · rw [if_neg hl, norm_zero, mul_zero]
      exact norm_nonneg _

/-- **C137** in particular for `lam = 2, ..., 10` up to the limit of C62 (2049 for `lam = 2`), with nothing assumed about the filters -/
theorem C137_integer {p : ℕ} (hv : c.Core jm J) (hR : (Backend.looped E mr).Ready jm c) (hE : (baseEngine E c).Std c.reality)
    (hX : (baseEngine E c).Exact c.spin c.reality) (hRT : (Backend.looped E mr).RoundTrip c) (hp : 2 ≤ p) (hp' : p ≤ 10) (hlam : c.lam = p)
    (hL : c.L ≤ maxL p) (spin0 : ℤ) {f : Px} {flm : Arr2 ℂ} (hf : E.sphForward f c.L c.spin c.sampling c.nside c.reality = .ok flm) :
    ∃ w s g, Base.analysis_looped jm E f c.L c.N c.J_min c.lam c.spin spin0 c.sampling c.nside c.reality mr = .ok (w, s) ∧
      Base.synthesis_looped jm E w s c.L c.N c.J_min c.lam c.spin spin0 c.sampling c.nside c.reality mr =
        E.sphInverse g c.L c.spin c.sampling c.nside c.reality 0 ∧ g.r = c.L ∧ g.c = 2 * c.L - 1 ∧
      ∀ l m, co2 g l m = if max |c.spin| |spin0| ≤ l then
        (((l + spin0).toNat.factorial : ℂ) / ((l - spin0).toNat.factorial : ℂ)) * co2 flm l m else 0 := by
  have hT := hv.top
  have hk := k_lam_ok hT (show (3 : ℤ) ≤ 300 by norm_num)
  refine C137_round_trip hv hR hE hX hRT hk ?_ spin0 hf
  rw [hlam] at hT hk
  exact (by rw [hlam]; exact noOvershoot_int hp hp' hT hL hk)

end

/-- `Y_{3,0}` at `L = 2049` with `spin0 = 2` comes back as `5! / 1! = 120` times itself -/
example (reality mr : Bool) : ∃ f w s g, Toy.base.sphForward f 2049 0 "mw" none reality = .ok (deltaFlm 2049 3) ∧
    Base.analysis_looped j_max Toy.base f 2049 3 2 2 0 2 "mw" none reality mr = .ok (w, s) ∧
    Base.synthesis_looped j_max Toy.base w s 2049 3 2 2 0 2 "mw" none reality mr = Toy.base.sphInverse g 2049 0 "mw" none reality 0 ∧
    co2 g 3 0 = 120 := by
  have hw := dyCfg_works (L := 2049) (b := .looped Toy.base mr) le_rfl (by norm_num) (Or.inr (Or.inl ⟨mr, rfl⟩)) reality
  obtain ⟨f, -, hf⟩ := hw.exact.sph 2049 (deltaFlm 2049 3) (by norm_num)
    (deltaFlm_bl (by norm_num) (by norm_num) (by norm_num [dyCfg])) (fun _ => deltaFlm_herm (by norm_num) (by norm_num))
  obtain ⟨w, s, g, h1, h2, -, -, h3⟩ := C137_integer (p := 2) hw.valid.core hw.ready hw.std hw.exact hw.trip le_rfl (by norm_num) (by simp [dyCfg])
    (by norm_num [dyCfg, maxL]) 2 hf
  refine ⟨f, w, s, g, hf, h1, h2, ?_⟩
  rw [h3, if_pos (by norm_num [dyCfg]), deltaFlm_co (by norm_num) (by norm_num), if_pos ⟨rfl, rfl⟩, show ((3 : ℤ) + 2).toNat = 5 from rfl,
    show ((3 : ℤ) - 2).toNat = 1 from rfl]
  norm_num [Nat.factorial]

end S2wav
