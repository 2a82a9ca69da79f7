import Verif.Lemmas.LoopedErr
import Verif.Props.Ieee754

/-! # C112: the looped transforms of `base.py` in double precision

`analysis_looped` and `synthesis_looped` of `s2wav/transforms/base.py`, with everything s2wav itself computes in double precision, the filters
included, and with s2fft's transforms accurate up to a relative error `δ`, as in C107. -/

namespace S2wav
open Classical

/-- **C112** the programs over an arbitrary arithmetic are, in exact arithmetic and with the filters of the exact model, the programs of
the exact model, on all inputs. -/
theorem C112_exact (E : BaseFFT) (jm : JMax) (L N J_min : ℤ) (lam : ℝ) (spin spin0 : ℤ) (sampling : String) (nside : Option ℤ) (reality mr : Bool) :
    (∀ f, Base.analysis_loopedO Ops.exact (fun k z => (-1 : ℂ) ^ k * z) E.toO jm (filters_directional jm L N J_min lam spin spin0) f L N J_min lam spin
        sampling nside reality mr =
      Base.analysis_looped jm E f L N J_min lam spin spin0 sampling nside reality mr) ∧
    (∀ w s, Base.synthesis_loopedO Ops.exact (fun k z => (-1 : ℂ) ^ k * z) E.toO jm (filters_directional jm L N J_min lam spin spin0) w s L N J_min lam
        spin sampling nside reality mr =
      Base.synthesis_looped jm E w s L N J_min lam spin spin0 sampling nside reality mr) := by
  constructor
  · intro f
    unfold Base.analysis_loopedO Base.analysis_looped
    simp only [Base.construct_fO, construct_flm, construct_flmn, construct_f, bind_assoc]
    rcases jm L lam with e | J
    · rfl
    · simp only [Py.bind_ok]
      rfl
  · intro w s
    unfold Base.synthesis_loopedO Base.synthesis_looped
    rfl

section
variable {O : Ops C64 F64} {sg : ℤ → C64 → C64} {jm : JMax} {c : Cfg} {J : ℤ} {mr : Bool} {psi : Arr3 ℂ} {phi : Arr1 ℝ} {flm : Arr2 ℂ} {P : Type} {δ κ τ : ℝ} {f : P}
  {E : BaseFFTO C64 P}

theorem norm_sign_conj (k : ℤ) (a b : ℂ) : ‖(-1 : ℂ) ^ k * (starRingEnd ℂ) a - (-1 : ℂ) ^ k * (starRingEnd ℂ) b‖ = ‖a - b‖ := by
  rw [← mul_sub, ← map_sub, norm_mul, norm_zpow, norm_neg, norm_one, one_zpow, one_mul, Complex.norm_conj]

theorem norm_sign_conj' (k : ℤ) (a : ℂ) : ‖(-1 : ℂ) ^ k * (starRingEnd ℂ) a‖ = ‖a‖ := by
  rw [norm_mul, norm_zpow, norm_neg, norm_one, one_zpow, one_mul, Complex.norm_conj]

/-- the cells `analysis_looped` fills -/
def AnaE (Lj Nj L0j spin : ℤ) (reality : Bool) (t : ℤ × ℤ × ℤ) : Prop :=
  ∃ i, 0 ≤ i ∧ i < Nj ∧ ((t.1 = 2 * i ∧ Lj - 1 ≤ t.2.2 ∨ t.1 = mirror Nj i reality ∧ t.2.2 < Lj - 1) ∧
    max (max |spin| |-Nj + 1 + 2 * i|) L0j ≤ t.2.1 ∧ t.2.1 < Lj ∧ |t.2.2 - (Lj - 1)| ≤ t.2.1)

/-- the harmonic-space part of the looped analysis, with bounds on what it computes -/
theorem ana_looped64 (hO : O.Good) (hsg : ∀ k z, sg k (.ofC z) = .ofC ((-1 : ℂ) ^ k * z)) (hL : 1 ≤ c.L) (hL' : c.L ≤ 2 ^ 52) (hlam : 1 < c.lam) (hN : 1 ≤ c.N) (hNL : c.N ≤ c.L)
    (h0 : 0 ≤ c.J_min) (h1 : c.J_min ≤ J + 1) (hG : c.Filters J mr psi phi) (hbl : BL2 c.L 0 flm) (hherm : c.reality = true → Herm2 flm)
    (hf : ∀ l m, ‖flm.v l m‖ ≤ 2 ^ (300 : ℤ)) (hpsi : ∀ j, c.J_min ≤ j → j ≤ J → ∀ l n, 0 ≤ l → l < c.L → ‖psi.v j l n‖ ≤ 2 ^ (30 : ℤ))
    (hphi : ∀ l, 0 ≤ l → l < c.L → |phi.v l| ≤ 2 ^ (30 : ℤ)) :
    ∃ (t : ℤ → Arr3 ℂ) (s : Arr2 ℂ),
      (∀ j, c.J_min ≤ j → j ≤ J → (S3 (2 * c.Nj mr j - 1) (c.Lj mr j) (2 * c.Lj mr j - 1) fun t =>
        if AnaE (c.Lj mr j) (c.Nj mr j) (c.L0 mr j) c.spin c.reality t then
          loopFO O sg c.L (c.Lj mr j) (c.Nj mr j) (psi.map C64.ofC) j (flm.map C64.ofC) c.reality t else 0) = (t j).map C64.ofC) ∧
      (S2 (c.Ls mr) (2 * c.Ls mr - 1) fun t =>
        if |c.spin| ≤ t.1 ∧ t.1 < c.Ls mr ∧ |t.2 - (c.Ls mr - 1)| ≤ t.1 then
          scalFO O sg c.L (c.Ls mr) (phi.map F64.fin) (flm.map C64.ofC) c.reality t else 0) = s.map C64.ofC ∧
      (∀ j, c.J_min ≤ j → j ≤ J → (t j).d = 2 * c.Nj mr j - 1 ∧ (t j).r = c.Lj mr j ∧ (t j).c = 2 * c.Lj mr j - 1 ∧
        (∀ k l m, ‖(t j).v k l m‖ ≤ 2 ^ (350 : ℤ)) ∧
        ∀ n l m, ‖co3 (t j) n l m - co3 (wavCoeffs (c.Lj mr j) (c.Nj mr j) (fun l n => psi.v j l (c.L - 1 + n)) flm) n l m‖ ≤
          2 ^ (-47 : ℤ) * ‖co3 (wavCoeffs (c.Lj mr j) (c.Nj mr j) (fun l n => psi.v j l (c.L - 1 + n)) flm) n l m‖ + 2 ^ (-690 : ℤ)) ∧
      s.r = c.Ls mr ∧ s.c = 2 * c.Ls mr - 1 ∧ (∀ l m, ‖s.v l m‖ ≤ 2 ^ (350 : ℤ)) ∧
      ∀ l m, ‖co2 s l m - co2 (scalCoeffs (c.Ls mr) phi.v flm) l m‖ ≤
        2 ^ (-47 : ℤ) * ‖co2 (scalCoeffs (c.Ls mr) phi.v flm) l m‖ + 2 ^ (-690 : ℤ) := by
  have hZ := hG.zero
  have hT := hG.trunc
  have tri := hbl.tri
  obtain ⟨t, s, A1, A2, A3, A4, A5, A6, A7⟩ := ana_pipe (J := J) (loop_good hO) hL hL' hlam hN hNL h0 h1 hG hbl hf hpsi hphi
  rw [harmW_eq O.loop hL hlam hN hNL h0 h1 (flm.map C64.ofC) (psi := psi.map C64.ofC) hG.d hG.r hG.cols hbl.r hbl.c] at A1
  rw [harmS_eq O.loop hL hlam (flm.map C64.ofC) (phi := phi.map F64.fin) hG.n hbl.r hbl.c] at A2
  injection A1 with A1
  injection A2 with A2
  have hLs : scal_bandlimit c.L c.J_min c.lam mr = c.Ls mr := rfl
  rw [hLs] at A2
  set Ls := c.Ls mr with hLsd
  refine ⟨fun j => Arr3.of (2 * c.Nj mr j - 1) (c.Lj mr j) (2 * c.Lj mr j - 1) fun k l m =>
      if AnaE (c.Lj mr j) (c.Nj mr j) (c.L0 mr j) c.spin c.reality (k, l, m) then
        if c.reality = true ∧ m < c.Lj mr j - 1 then
          (-1 : ℂ) ^ ((c.Lj mr j - 1 - m) + (c.Nj mr j - 1 - k)) * (starRingEnd ℂ) ((t j).v (2 * c.Nj mr j - 2 - k) l (2 * c.Lj mr j - 2 - m))
        else (t j).v k l m
      else 0,
    Arr2.of Ls (2 * Ls - 1) fun l m =>
      if |c.spin| ≤ l ∧ l < Ls ∧ |m - (Ls - 1)| ≤ l then
        if c.reality = true ∧ m < Ls - 1 then (-1 : ℂ) ^ (Ls - 1 - m) * (starRingEnd ℂ) (s.v l (2 * Ls - 2 - m)) else s.v l m
      else 0, ?_, ?_, ?_, rfl, rfl, ?_, ?_⟩
  · intro j a0 a1
    have hj : (t j).map C64.ofC = anaWO O.loop c.L (c.Lj mr j) (c.Nj mr j) (c.L0 mr j) (psi.map C64.ofC) j (flm.map C64.ofC) :=
      (map_range_inj A1 a0 (by omega)).symm
    set Lj := c.Lj mr j
    set Nj := c.Nj mr j
    set L0 := c.L0 mr j
    have hv : ∀ k l m, 0 ≤ k → k < 2 * Nj - 1 → 0 ≤ l → l < Lj → 0 ≤ m → m < 2 * Lj - 1 → k % 2 = 0 → L0 ≤ l →
        prodO O c.L (psi.map C64.ofC) j (flm.map C64.ofC) (k - (Nj - 1)) l (m - (Lj - 1)) = .ofC ((t j).v k l m) := by
      intro k l m b0 b1 b2 b3 b4 b5 b6 b7
      rw [← map_ofC3, hj, anaWO, Arr3.of_v _ _ _ _ _ _ _ ⟨b0, b1, b2, b3, b4, b5⟩, if_pos ⟨b6, b7⟩]
      unfold prodO
      rw [show c.L - 1 + (m - (Lj - 1)) = c.L - Lj + m by ring, show c.L - 1 + (k - (Nj - 1)) = c.L - Nj + k by ring]
      exact (if_pos rfl).symm
    unfold S3
    rw [map_ofC_of3]
    refine Arr3.of_congr fun k l m b0 b1 b2 b3 b4 b5 => ?_
    beta_reduce
    by_cases hE : AnaE Lj Nj L0 c.spin c.reality (k, l, m)
    · rw [if_pos hE, if_pos hE]
      obtain ⟨hk, hl⟩ : k % 2 = 0 ∧ L0 ≤ l := by
        obtain ⟨i, hi0, hi1, hi2, hi3, _⟩ := hE
        unfold mirror at hi2
        simp only at hi2 hi3
        refine ⟨?_, by omega⟩
        split_ifs at hi2 <;> omega
      unfold loopFO
      simp only
      by_cases hR : c.reality = true ∧ m < Lj - 1
      · rw [if_pos hR, if_pos hR]
        have := hv (2 * Nj - 2 - k) l (2 * Lj - 2 - m) (by omega) (by omega) b2 b3 (by omega) (by omega) (by omega) hl
        rw [show 2 * Nj - 2 - k - (Nj - 1) = Nj - 1 - k by ring, show 2 * Lj - 2 - m - (Lj - 1) = Lj - 1 - m by ring] at this
        rw [this, hO.conj, hsg]
      · rw [if_neg hR, if_neg hR]
        exact hv k l m b0 b1 b2 b3 b4 b5 hk hl
    · rw [if_neg hE, if_neg hE]; rfl
  · have hv : ∀ l m, 0 ≤ l → l < Ls → 0 ≤ m → m < 2 * Ls - 1 →
        sprodO O c.L (phi.map F64.fin) (flm.map C64.ofC) l (m - (Ls - 1)) = .ofC (s.v l m) := by
      intro l m b2 b3 b4 b5
      rw [← map_ofC2, ← A2, anaSO, Arr2.of_v _ _ _ _ _ ⟨b2, b3, b4, b5⟩]
      unfold sprodO
      rw [show c.L - 1 + (m - (Ls - 1)) = c.L - Ls + m by ring]
      rfl
    unfold S2
    rw [map_ofC_of2]
    refine Arr2.of_congr fun l m b2 b3 b4 b5 => ?_
    simp only
    by_cases hE : |c.spin| ≤ l ∧ l < Ls ∧ |m - (Ls - 1)| ≤ l
    · rw [if_pos hE, if_pos hE]
      unfold scalFO
      simp only
      by_cases hR : c.reality = true ∧ m < Ls - 1
      · rw [if_pos hR, if_pos hR]
        have := hv l (2 * Ls - 2 - m) b2 b3 (by omega) (by omega)
        rw [show 2 * Ls - 2 - m - (Ls - 1) = Ls - 1 - m by ring] at this
        rw [this, hO.conj, hsg]
      · rw [if_neg hR, if_neg hR]
        exact hv l m b2 b3 b4 b5
    · rw [if_neg hE, if_neg hE]; rfl
  · intro j a0 a1
    obtain ⟨T1, T2, T3, T4, T5⟩ := A3 j a0 a1
    have hW : wavCoeffs (c.Lj mr j) (c.Nj mr j) (fun l n => psi.v j l (c.L - 1 + n)) flm = anaW c.L (c.Lj mr j) (c.Nj mr j) (c.L0 mr j) psi j flm :=
      (anaW_eq hT tri (rfl : LN_j c.L j c.N c.lam mr = (c.Lj mr j, c.Nj mr j, c.L0 mr j))).symm
    have hcl := ana_loop_closed (L := c.L) (j := j) (Lj := c.Lj mr j) (Nj := c.Nj mr j) (L0j := c.L0 mr j) c.reality hZ tri
      fun h => ⟨hG.sym h, (hherm h).sym hbl.r⟩
    have hhm : c.reality = true → Herm3 (anaW c.L (c.Lj mr j) (c.Nj mr j) (c.L0 mr j) psi j flm) :=
      fun h => anaW_herm hT (hG.sym h) tri (hherm h) (rfl : LN_j c.L j c.N c.lam mr = (c.Lj mr j, c.Nj mr j, c.L0 mr j))
    rw [hW] at T5 ⊢
    have hw1 : (anaW c.L (c.Lj mr j) (c.Nj mr j) (c.L0 mr j) psi j flm).d = 2 * c.Nj mr j - 1 := rfl
    have hw2 : (anaW c.L (c.Lj mr j) (c.Nj mr j) (c.L0 mr j) psi j flm).r = c.Lj mr j := rfl
    set Lj := c.Lj mr j
    set Nj := c.Nj mr j
    set L0 := c.L0 mr j
    set W := anaW c.L Lj Nj L0 psi j flm with hWd
    have e1 : (2 * Nj - 1 - 1) / 2 = Nj - 1 := by omega
    have hv : ∀ k l m, ‖(t j).v k l m - W.v k l m‖ ≤ 2 ^ (-47 : ℤ) * ‖W.v k l m‖ + 2 ^ (-690 : ℤ) := by
      intro k l m
      have := T5 (k - (Nj - 1)) l (m - (Lj - 1))
      rwa [co3, co3, T1, T2, hw1, hw2, e1, add_sub_cancel, add_sub_cancel] at this
    have hout : ∀ k l m, 0 ≤ k → k < 2 * Nj - 1 → 0 ≤ l → l < Lj → 0 ≤ m → m < 2 * Lj - 1 → ¬AnaE Lj Nj L0 c.spin c.reality (k, l, m) → W.v k l m = 0 := by
      intro k l m b0 b1 b2 b3 b4 b5 hE
      rw [← hcl, S3, Arr3.of_v _ _ _ _ _ _ _ ⟨b0, b1, b2, b3, b4, b5⟩]
      exact if_neg hE
    have hmir : c.reality = true → ∀ k l m, W.v k l m = (-1 : ℂ) ^ ((Lj - 1 - m) + (Nj - 1 - k)) * (starRingEnd ℂ) (W.v (2 * Nj - 2 - k) l (2 * Lj - 2 - m)) := by
      intro h k l m
      have := hhm h (Nj - 1 - k) l (Lj - 1 - m)
      rw [co3, co3, hw1, hw2, e1, show Nj - 1 + -(Nj - 1 - k) = k by ring, show Lj - 1 + -(Lj - 1 - m) = m by ring,
        show Nj - 1 + (Nj - 1 - k) = 2 * Nj - 2 - k by ring, show Lj - 1 + (Lj - 1 - m) = 2 * Lj - 2 - m by ring, add_comm (Nj - 1 - k)] at this
      exact this
    have hcell : ∀ k l m, ‖(Arr3.of (2 * Nj - 1) Lj (2 * Lj - 1) fun k l m =>
      if AnaE Lj Nj L0 c.spin c.reality (k, l, m) then
        if c.reality = true ∧ m < Lj - 1 then
          (-1 : ℂ) ^ ((Lj - 1 - m) + (Nj - 1 - k)) * (starRingEnd ℂ) ((t j).v (2 * Nj - 2 - k) l (2 * Lj - 2 - m))
        else (t j).v k l m
      else 0).v k l m - W.v k l m‖ ≤ 2 ^ (-47 : ℤ) * ‖W.v k l m‖ + 2 ^ (-690 : ℤ) := by
      intro k l m
      by_cases hb : 0 ≤ k ∧ k < 2 * Nj - 1 ∧ 0 ≤ l ∧ l < Lj ∧ 0 ≤ m ∧ m < 2 * Lj - 1
      · rw [Arr3.of_v _ _ _ _ _ _ _ hb]
        obtain ⟨b0, b1, b2, b3, b4, b5⟩ := hb
        by_cases hE : AnaE Lj Nj L0 c.spin c.reality (k, l, m)
        · rw [if_pos hE]
          by_cases hR : c.reality = true ∧ m < Lj - 1
          · rw [if_pos hR, hmir hR.1 k l m, norm_sign_conj, norm_sign_conj']
            exact hv _ _ _
          · rw [if_neg hR]
            exact hv _ _ _
        · rw [if_neg hE, hout k l m b0 b1 b2 b3 b4 b5 hE, sub_zero, norm_zero, mul_zero, zero_add]
          positivity
      · rw [Arr3.of_out _ _ _ _ _ _ _ hb, W.junk k l m hb, sub_zero, norm_zero, mul_zero, zero_add]
        positivity
    refine ⟨rfl, rfl, rfl, fun k l m => ?_, fun n l m => hcell _ _ _⟩
    by_cases hb : 0 ≤ k ∧ k < 2 * Nj - 1 ∧ 0 ≤ l ∧ l < Lj ∧ 0 ≤ m ∧ m < 2 * Lj - 1
    · rw [Arr3.of_v _ _ _ _ _ _ _ hb]
      split_ifs
      · rw [norm_sign_conj']; exact T4 _ _ _
      · exact T4 _ _ _
      · rw [norm_zero]; positivity
    · rw [Arr3.of_out _ _ _ _ _ _ _ hb, norm_zero]; positivity
  · intro l m
    by_cases hb : 0 ≤ l ∧ l < Ls ∧ 0 ≤ m ∧ m < 2 * Ls - 1
    · rw [Arr2.of_v _ _ _ _ _ hb]
      split_ifs
      · rw [norm_sign_conj']; exact A6 _ _
      · exact A6 _ _
      · rw [norm_zero]; positivity
    · rw [Arr2.of_out _ _ _ _ _ hb, norm_zero]; positivity
  · have hW : scalCoeffs Ls phi.v flm = anaS c.L Ls phi flm := (anaS_eq _ hbl.r).symm
    have hz : BL2 Ls c.spin (anaS c.L Ls phi flm) := anaS_bl hT hZ tri
    have hhm : c.reality = true → Herm2 (anaS c.L Ls phi flm) := fun h => anaS_herm hT tri (hherm h)
    rw [hW] at A7 ⊢
    have hw2 : (anaS c.L Ls phi flm).r = Ls := rfl
    set W := anaS c.L Ls phi flm with hWd
    have hv : ∀ l m, ‖s.v l m - W.v l m‖ ≤ 2 ^ (-47 : ℤ) * ‖W.v l m‖ + 2 ^ (-690 : ℤ) := by
      intro l m
      have := A7 l (m - (Ls - 1))
      rwa [co2, co2, A4, hw2, add_sub_cancel] at this
    have hmir : c.reality = true → ∀ l m, W.v l m = (-1 : ℂ) ^ (Ls - 1 - m) * (starRingEnd ℂ) (W.v l (2 * Ls - 2 - m)) := by
      intro h l m
      have := hhm h l (Ls - 1 - m)
      rw [co2, co2, hw2, show Ls - 1 + -(Ls - 1 - m) = m by ring, show Ls - 1 + (Ls - 1 - m) = 2 * Ls - 2 - m by ring] at this
      exact this
    intro l m
    rw [co2, co2, hw2]
    show ‖(Arr2.of Ls (2 * Ls - 1) _).v l (Ls - 1 + m) - _‖ ≤ _
    generalize Ls - 1 + m = m
    by_cases hb : 0 ≤ l ∧ l < Ls ∧ 0 ≤ m ∧ m < 2 * Ls - 1
    · rw [Arr2.of_v _ _ _ _ _ hb]
      by_cases hE : |c.spin| ≤ l ∧ l < Ls ∧ |m - (Ls - 1)| ≤ l
      · rw [if_pos hE]
        by_cases hR : c.reality = true ∧ m < Ls - 1
        · rw [if_pos hR, hmir hR.1 l m, norm_sign_conj, norm_sign_conj']
          exact hv _ _
        · rw [if_neg hR]
          exact hv _ _
      · have : W.v l m = 0 := by
          have := hz.zero l (m - (Ls - 1)) (by by_contra hc; exact hE (by omega))
          rwa [co2, hw2, add_sub_cancel] at this
        rw [if_neg hE, this, sub_zero, norm_zero, mul_zero, zero_add]
        positivity
    · rw [Arr2.of_out _ _ _ _ _ hb, W.junk l m hb, sub_zero, norm_zero, mul_zero, zero_add]
      positivity

/-- what the looped synthesis computes from Wigner coefficients `t` and scaling coefficients `s` -/
noncomputable def synLooped (O : Ops C64 F64) (sg : ℤ → C64 → C64) (c : Cfg) (J : ℤ) (mr : Bool) (psi : Arr3 C64) (phi : Arr1 F64) (t : ℤ → Arr3 C64) (s : Arr2 C64) : Arr2 C64 :=
  S2 c.L (2 * c.L - 1) (synLoopFO O sg c.L (c.Ls mr) c.spin c.reality phi s (synTot O mr c.L c.N c.J_min J c.lam c.spin psi t))

/-- the harmonic-space part of the looped synthesis: finite, and at the orders an inverse transform reads an accurate sum over the scales -/
theorem syn_looped64 (hO : O.Good) (hsg : ∀ k z, sg k (.ofC z) = .ofC ((-1 : ℂ) ^ k * z)) (hL : 1 ≤ c.L) (hL' : c.L ≤ 2 ^ 52) (hlam : 1 < c.lam) (hN : 1 ≤ c.N)
    (hN' : c.N ≤ 2 ^ 10) (h0 : 0 ≤ c.J_min) (h1 : c.J_min ≤ J + 1) (hJ : J < 2 ^ 10) (hG : c.Filters J mr psi phi)
    (hpsi : ∀ j, c.J_min ≤ j → j ≤ J → ∀ l n, 0 ≤ l → l < c.L → ‖psi.v j l n‖ ≤ 2 ^ (30 : ℤ))
    (hphi : ∀ l, 0 ≤ l → l < c.L → |phi.v l| ≤ 2 ^ (30 : ℤ)) {t : ℤ → Arr3 ℂ} {s : Arr2 ℂ}
    (hw : ∀ j, c.J_min ≤ j → j ≤ J → BL3 (c.Lj mr j) (c.Nj mr j) 0 (t j)) (hs : BL2 (c.Ls mr) 0 s)
    (ht : ∀ j, c.J_min ≤ j → j ≤ J → ∀ k l m, ‖(t j).v k l m‖ ≤ 2 ^ (380 : ℤ)) (hsb : ∀ l m, ‖s.v l m‖ ≤ 2 ^ (380 : ℤ)) :
    ∃ g : Arr2 ℂ, (∃ g' : Arr2 ℂ, synLooped O sg c J mr (psi.map C64.ofC) (phi.map F64.fin) (fun j => (t j).map C64.ofC) (s.map C64.ofC) = g'.map C64.ofC ∧
        g'.r = c.L ∧ g'.c = 2 * c.L - 1 ∧ ∀ l m, (c.reality = true → 0 ≤ m) → co2 g' l m = co2 g l m) ∧
      g.r = c.L ∧ g.c = 2 * c.L - 1 ∧
      ∀ l m, ‖g.v l m - (synA c.L c.N c.J_min J c.lam mr psi phi t s).v l m‖ ≤
        (c.N * (J + 1) + 4) / 2 ^ 49 * ‖(synA c.L c.N c.J_min J c.lam mr (abs3 psi) (abs1 phi) (fun j => abs3 (t j)) (abs2 s)).v l m‖ + 2 ^ (-610 : ℤ) := by
  have key : ∀ l m : ℤ, ∃ y z : ℂ, 0 ≤ l ∧ l < c.L ∧ 0 ≤ m ∧ m < 2 * c.L - 1 →
      synTot O mr c.L c.N c.J_min J c.lam c.spin (psi.map C64.ofC) (fun j => (t j).map C64.ofC) (l, m) = .ofC y ∧ ‖y‖ ≤ 2 ^ (530 : ℤ) ∧
      (if |c.spin| ≤ l ∧ l < c.Ls mr ∧ |m - (c.L - 1)| ≤ l then
        O.add (.ofC y) (synU O c.L (c.Ls mr) (phi.map F64.fin) (s.map C64.ofC) (l, m)) else .ofC y) = .ofC z ∧ ‖z‖ ≤ 2 ^ (530 : ℤ) ∧
      ‖z - (synA c.L c.N c.J_min J c.lam mr psi phi t s).v l m‖ ≤
        (c.N * (J + 1) + 4) / 2 ^ 49 * ‖(synA c.L c.N c.J_min J c.lam mr (abs3 psi) (abs1 phi) (fun j => abs3 (t j)) (abs2 s)).v l m‖ + 2 ^ (-610 : ℤ) := by
    intro l m
    by_cases h : 0 ≤ l ∧ l < c.L ∧ 0 ≤ m ∧ m < 2 * c.L - 1
    · obtain ⟨y, z, hyz⟩ := cell_entry hO hL hL' hlam hN hN' h0 h1 hJ hG.zero h.1 h.2.1 hpsi hphi (fun j a b => (hw j a b).tri) (fun j a b => (hw j a b).abs.tri)
        ht hs.tri hs.abs.tri hsb h.2.2.1 h.2.2.2
      exact ⟨y, z, fun _ => hyz⟩
    · exact ⟨0, 0, fun a => absurd a h⟩
  choose y z hyz using key
  have key2 : ∀ l m : ℤ, ∃ x : ℂ, 0 ≤ l ∧ l < c.L ∧ 0 ≤ m ∧ m < 2 * c.L - 1 → c.reality = true ∧ m < c.L - 1 ∧ |c.spin| ≤ l ∧ l < c.Ls mr ∧ |m - (c.L - 1)| ≤ l →
      O.add (.ofC (y l m)) (.ofC ((-1 : ℂ) ^ (c.L - 1 - m) * (starRingEnd ℂ) (z l (2 * (c.L - 1) - m)))) = .ofC x := by
    intro l m
    by_cases h : 0 ≤ l ∧ l < c.L ∧ 0 ≤ m ∧ m < 2 * c.L - 1
    · obtain ⟨x, hx, -⟩ := hO.add (y l m) ((-1 : ℂ) ^ (c.L - 1 - m) * (starRingEnd ℂ) (z l (2 * (c.L - 1) - m)))
        ((hyz l m h).2.1.trans (p2_mono (by norm_num)))
        (by rw [norm_sign_conj']; exact (hyz l _ ⟨h.1, h.2.1, by omega, by omega⟩).2.2.2.1.trans (p2_mono (by norm_num)))
      exact ⟨x, fun _ _ => hx⟩
    · exact ⟨0, fun a => absurd a h⟩
  choose x hx using key2
  refine ⟨Arr2.of c.L (2 * c.L - 1) z, ⟨Arr2.of c.L (2 * c.L - 1) fun l m =>
    if c.reality = true ∧ m < c.L - 1 ∧ |c.spin| ≤ l ∧ l < c.Ls mr ∧ |m - (c.L - 1)| ≤ l then x l m else z l m, ?_, rfl, rfl, ?_⟩, rfl, rfl, ?_⟩
  · unfold synLooped S2
    rw [map_ofC_of2]
    refine Arr2.of_congr fun l m b0 b1 b2 b3 => ?_
    obtain ⟨h1, -, h3, -, -⟩ := hyz l m ⟨b0, b1, b2, b3⟩
    unfold synLoopFO
    simp only
    rw [h1]
    by_cases hE : |c.spin| ≤ l ∧ l < c.Ls mr ∧ |m - (c.L - 1)| ≤ l
    · rw [if_pos hE]
      rw [if_pos hE] at h3
      by_cases hR : c.reality = true ∧ m < c.L - 1
      · rw [if_pos hR, if_pos ⟨hR.1, hR.2, hE⟩, ← hx l m ⟨b0, b1, b2, b3⟩ ⟨hR.1, hR.2, hE⟩]
        obtain ⟨h1', -, h3', -, -⟩ := hyz l (2 * (c.L - 1) - m) ⟨b0, b1, by omega, by omega⟩
        rw [if_pos ⟨hE.1, hE.2.1, by have := abs_le.1 hE.2.2; exact abs_le.2 ⟨by omega, by omega⟩⟩] at h3'
        rw [h1', h3', hO.conj, hsg]
      · rw [if_neg hR, if_neg (fun h => hR ⟨h.1, h.2.1⟩), h3]
    · rw [if_neg hE, if_neg (fun h => hE h.2.2)]
      rw [if_neg hE] at h3
      exact h3
  · intro l m hm
    show (Arr2.of c.L (2 * c.L - 1) _).v l (c.L - 1 + m) = (Arr2.of c.L (2 * c.L - 1) _).v l (c.L - 1 + m)
    by_cases hb : 0 ≤ l ∧ l < c.L ∧ 0 ≤ c.L - 1 + m ∧ c.L - 1 + m < 2 * c.L - 1
    · rw [Arr2.of_v _ _ _ _ _ hb, Arr2.of_v _ _ _ _ _ hb, if_neg]
      rintro ⟨h1, h2, -⟩
      have := hm h1
      omega
    · rw [Arr2.of_out _ _ _ _ _ hb, Arr2.of_out _ _ _ _ _ hb]
  · intro l m
    by_cases hb : 0 ≤ l ∧ l < c.L ∧ 0 ≤ m ∧ m < 2 * c.L - 1
    · rw [Arr2.of_v _ _ _ _ _ hb]
      exact (hyz l m hb).2.2.2.2
    · unfold synA
      rw [Arr2.of_out _ _ _ _ _ hb, Arr2.of_out _ _ _ _ _ hb, Arr2.of_out _ _ _ _ _ hb, sub_zero, norm_zero, mul_zero, zero_add]
      positivity

/-- `analysis_looped` computes the images of these coefficients -/
theorem ana_looped_run (hv : c.Valid jm J) (hG : c.Filters J mr psi phi) (hbl : BL2 c.L 0 flm)
    (hal : ∃ al, Base.construct_fO E jm c.L c.N c.J_min c.lam c.sampling c.nside mr = .ok al)
    (hf : E.sphForward f c.L c.spin c.sampling c.nside c.reality = .ok (flm.map C64.ofC)) {t : ℤ → Arr3 ℂ} {s : Arr2 ℂ} {p : ℤ → P} {ps : P}
    (B1 : ∀ j, c.J_min ≤ j → j ≤ J → (S3 (2 * c.Nj mr j - 1) (c.Lj mr j) (2 * c.Lj mr j - 1) fun t =>
        if AnaE (c.Lj mr j) (c.Nj mr j) (c.L0 mr j) c.spin c.reality t then
          loopFO O sg c.L (c.Lj mr j) (c.Nj mr j) (psi.map C64.ofC) j (flm.map C64.ofC) c.reality t else 0) = (t j).map C64.ofC)
    (B2 : (S2 (c.Ls mr) (2 * c.Ls mr - 1) fun t =>
        if |c.spin| ≤ t.1 ∧ t.1 < c.Ls mr ∧ |t.2 - (c.Ls mr - 1)| ≤ t.1 then
          scalFO O sg c.L (c.Ls mr) (phi.map F64.fin) (flm.map C64.ofC) c.reality t else 0) = s.map C64.ofC)
    (hp : ∀ j, c.J_min ≤ j → j < J + 1 → E.wigInverse ((t j).map C64.ofC) (c.Lj mr j) (c.Nj mr j) (c.L0 mr j) c.sampling c.reality c.nside = .ok (p j))
    (hps : E.sphInverse (s.map C64.ofC) (c.Ls mr) c.spin c.sampling c.nside c.reality 0 = .ok ps) :
    Base.analysis_loopedO O sg E jm (.ok (psi.map C64.ofC, phi.map F64.fin)) f c.L c.N c.J_min c.lam c.spin c.sampling c.nside c.reality mr =
      .ok ((pyRange c.J_min (J + 1)).map p, ps) := by
  have hJ := hv.top.hJ
  have hL := hv.top.hL
  have hlam := hv.top.hlam
  have h0 := hv.h0
  have h1 := hv.h1
  obtain ⟨al, hal⟩ := hal
  have hal' : (pyRange c.J_min (J + 1)).map (fun j => (al[(j - c.J_min).toNat]?).getD ps) = al := by
    have hal := hal
    simp only [Base.construct_fO, hJ, Py.bind_ok] at hal
    exact mapM_getD hal (fun _ => ps)
  have hb := scal_bandlimit_bounds hL hlam c.J_min mr
  have hz2 : (zeros2 (scal_bandlimit c.L c.J_min c.lam mr) (2 * scal_bandlimit c.L c.J_min c.lam mr - 1) : Py (Arr2 C64)) = .ok _ :=
    if_neg (by omega)
  have hfl := flmnM_ok (α := C64) (mr := mr) (J_min := c.J_min) (J := J) hL hv.hN hlam
  unfold flmnM at hfl
  unfold Base.analysis_loopedO
  simp only [hJ, Py.bind_ok, hz2, hal, hf]
  refine (congrArg (· >>= _) hfl).trans ?_
  rw [Py.bind_ok]
  set z : ℤ → Arr3 C64 := fun j => Arr3.of (2 * (LN_j c.L j c.N c.lam mr).2.1 - 1) (LN_j c.L j c.N c.lam mr).1 (2 * (LN_j c.L j c.N c.lam mr).1 - 1) fun _ _ _ => (0 : C64) with hz
  set T : ℤ → Arr3 C64 := fun j => (t j).map C64.ofC with hT
  set S : ℤ → List (Arr3 C64) := fun i => (pyRange c.J_min (J + 1)).map fun j => if j < i then T j else z j with hS
  have hi : (pyRange c.J_min (J + 1)).map z = S c.J_min := map_range_congr fun j h2 h3 => by rw [if_neg (by omega)]
  rw [hi]
  refine (congrArg (· >>= _) (range_loop_eq (b := J + 1) S (by omega) fun j hj0 hj1 => ?_)).trans ?_
  · rcases hp : LN_j c.L j c.N c.lam mr with ⟨Lj, Nj, L0j⟩
    have e1 : c.Lj mr j = Lj := congrArg (·.1) hp
    have e2 : c.Nj mr j = Nj := congrArg (·.2.1) hp
    have e3 : c.L0 mr j = L0j := congrArg (·.2.2) hp
    have hLb := LN_j_Lj_bounds (N := c.N) hL hlam j mr
    have hNb := LN_j_Nj_bounds hL hlam hv.hN j mr
    have hLo := LN_j_L0_nonneg hlam c.L j c.N mr
    rw [hp] at hLb hNb hLo
    have e : S j = SLO c.J_min J j (2 * Nj - 1) Lj (2 * Lj - 1) (fun k => if k < j then T k else z k) (fun _ => 0) := by
      refine map_range_congr fun k _ _ => ?_
      by_cases hk : k = j
      · subst hk; rw [if_neg (lt_irrefl k), Function.update_self, hz]
        simp only [hp]
        rfl
      · rw [Function.update_of_ne hk]
    rw [e]
    refine (ana_loop_scaleO (psi := psi.map C64.ofC) (flm := flm.map C64.ofC) (O := O) (sg := sg) c.spin c.reality (by have := hG.d; show j < psi.d; omega) hG.r hG.cols hbl.r hbl.c
      hNb.1 hLb.1 hLb.2 hLo hj0 hj1 h0 _).trans ?_
    have := B1 j hj0 (by omega)
    rw [e1, e2, e3] at this
    congr 1
    rw [SLO]
    refine (congrArg (fun a => (pyRange c.J_min (J + 1)).map (Function.update (fun k => if k < j then T k else z k) j a)) this).trans ?_
    exact map_update_step _ _ rfl
  · rw [Py.bind_ok]
    refine (congrArg (· >>= _) (ana_loop_scalingO (phi := phi.map F64.fin) (flm := flm.map C64.ofC) (O := O) (sg := sg) c.spin c.reality hG.n hbl.r hbl.c hb.2)).trans ?_
    rw [Py.bind_ok]
    have hps : E.sphInverse (S2 (scal_bandlimit c.L c.J_min c.lam mr) (2 * scal_bandlimit c.L c.J_min c.lam mr - 1) fun t =>
        if |c.spin| ≤ t.1 ∧ t.1 < scal_bandlimit c.L c.J_min c.lam mr ∧ |t.2 - (scal_bandlimit c.L c.J_min c.lam mr - 1)| ≤ t.1 then
          scalFO O sg c.L (scal_bandlimit c.L c.J_min c.lam mr) (phi.map F64.fin) (flm.map C64.ofC) c.reality t else 0)
        (scal_bandlimit c.L c.J_min c.lam mr) c.spin c.sampling c.nside c.reality 0 = .ok ps := by
      rw [← B2] at hps; exact hps
    simp only [hps, Py.bind_ok]
    rw [← hal']
    have e4 : (pyRange c.J_min (J + 1)).map (fun j => (al[(j - c.J_min).toNat]?).getD ps) =
        (fun i => (pyRange c.J_min (J + 1)).map fun j => if j < i then p j else (al[(j - c.J_min).toNat]?).getD ps) c.J_min :=
      map_range_congr fun j h2 h3 => by rw [if_neg (by omega)]
    rw [e4]
    refine (congrArg (· >>= _) (range_loop_eq (b := J + 1) (fun i => (pyRange c.J_min (J + 1)).map fun j => if j < i then p j else (al[(j - c.J_min).toNat]?).getD ps)
      (by omega) fun j hj0 hj1 => ?_)).trans ?_
    · simp only [hS]
      rw [listGet_range _ hj0 hj1, if_pos (by omega), Py.bind_ok]
      refine (congrArg (· >>= _) (hp j hj0 hj1)).trans ?_
      rw [Py.bind_ok, listSet_range _ hj0 hj1, map_update_step _ _ rfl]
    · rw [Py.bind_ok]
      congr 2
      exact map_range_congr fun j h2 h3 => by rw [if_pos (by omega)]

/-- `synthesis_looped` hands `synLooped` to the inverse transform -/
theorem syn_looped_run (hv : c.Valid jm J) (hG : c.Filters J mr psi phi) {p : ℤ → P} {ps : P} (hS : E.s2 (c.Ls mr) c.sampling c.nside = .ok (E.shape ps))
    (hw : ∀ j, c.J_min ≤ j → j ≤ J → E.so3 (c.Lj mr j) (c.Nj mr j) c.sampling c.nside = .ok (E.shape (p j))) {t : ℤ → Arr3 ℂ} {s : Arr2 ℂ}
    (ht : ∀ j, c.J_min ≤ j → j ≤ J → BL3 (c.Lj mr j) (c.Nj mr j) 0 (t j)) (hs : BL2 (c.Ls mr) 0 s)
    (hp : ∀ j, c.J_min ≤ j → j < J + 1 → E.wigForward (p j) (c.Lj mr j) (c.Nj mr j) (c.L0 mr j) c.sampling c.reality c.nside = .ok ((t j).map C64.ofC))
    (hps : E.sphForward ps (c.Ls mr) c.spin c.sampling c.nside c.reality = .ok (s.map C64.ofC)) :
    Base.synthesis_loopedO O sg E jm (.ok (psi.map C64.ofC, phi.map F64.fin)) ((pyRange c.J_min (J + 1)).map p) ps c.L c.N c.J_min c.lam c.spin c.sampling c.nside c.reality mr =
      E.sphInverse (synLooped O sg c J mr (psi.map C64.ofC) (phi.map F64.fin) (fun j => (t j).map C64.ofC) (s.map C64.ofC)) c.L c.spin c.sampling c.nside c.reality 0 := by
  have hJ := hv.top.hJ
  have hL := hv.top.hL
  have hlam := hv.top.hlam
  have h0 := hv.h0
  have h1 := hv.h1
  have hck := shapeCheckO_ok (p := p) hv hS hw
  have hb := scal_bandlimit_bounds hL hlam c.J_min mr
  have hz2 : (zeros2 c.L (2 * c.L - 1) : Py (Arr2 C64)) = .ok (S2 c.L (2 * c.L - 1) fun _ => 0) := if_neg (by omega)
  have hps : E.sphForward ps (scal_bandlimit c.L c.J_min c.lam mr) c.spin c.sampling c.nside c.reality = .ok (s.map C64.ofC) := hps
  unfold Base.synthesis_loopedO
  rw [hck]
  simp only [hJ, Py.bind_ok, hz2, hps]
  refine (congrArg (· >>= _) (upd_loop (a := c.J_min) (b := J + 1) (S2 c.L (2 * c.L - 1)) (fun j x g => synCell O c.L (c.Lj mr j) (c.Nj mr j) (c.L0 mr j) c.spin (psi.map C64.ofC) j
    ((t j).map C64.ofC) x g) (fun _ => 0) fun g j hj0 hj1 => ?_)).trans ?_
  · have hLb := LN_j_Lj_bounds (N := c.N) hL hlam j mr
    have hNb := LN_j_Nj_bounds hL hlam hv.hN j mr
    have hLo := LN_j_L0_nonneg hlam c.L j c.N mr
    rw [listGet_range _ hj0 hj1, Py.bind_ok]
    refine (congrArg (· >>= _) (hp j hj0 hj1)).trans ?_
    rw [Py.bind_ok]
    have := ht j hj0 (by omega)
    exact syn_loop_scaleO (psi := psi.map C64.ofC) (temp := (t j).map C64.ofC) (O := O) (by have := hG.d; show j < psi.d; omega) hG.r hG.cols this.d this.r this.c
      hNb.1 hLb.2 hLo (by omega) g
  · rw [Py.bind_ok]
    exact congrArg (· >>= _) (syn_loop_scalingO (phi := phi.map F64.fin) (s := s.map C64.ofC) (O := O) (sg := sg) c.spin c.reality hG.n hs.r hs.c hb.2 _)

/-- the inverse transforms return images of the shapes that `wavelet_shape_check` expects, and the arrays `analysis_looped` allocates
(base.py:251) can be allocated -/
structure BaseFFTO.LoopedShaped {P : Type} (E : BaseFFTO C64 P) (jm : JMax) (c : Cfg) (J : ℤ) (mr : Bool) : Prop where
  wav : ∀ j t p, c.J_min ≤ j → j ≤ J → E.wigInverse t (c.Lj mr j) (c.Nj mr j) (c.L0 mr j) c.sampling c.reality c.nside = .ok p →
    E.so3 (c.Lj mr j) (c.Nj mr j) c.sampling c.nside = .ok (E.shape p)
  scal : ∀ a p, E.sphInverse a (c.Ls mr) c.spin c.sampling c.nside c.reality 0 = .ok p → E.s2 (c.Ls mr) c.sampling c.nside = .ok (E.shape p)
  alloc : ∃ al, Base.construct_fO E jm c.L c.N c.J_min c.lam c.sampling c.nside mr = .ok al

theorem looped_core (hO : O.Good) (hsg : ∀ k z, sg k (.ofC z) = .ofC ((-1 : ℂ) ^ k * z)) (hn : E.Near c J mr δ κ τ) (hsh : E.LoopedShaped jm c J mr)
    (hδ : 0 ≤ δ) (hδ1 : δ ≤ 1) (hκ : 0 ≤ κ) (hκ1 : κ ≤ 2 ^ 20) (hτ : 0 ≤ τ) (hτ1 : τ ≤ 1)
    (hv : c.Valid jm J) (hL' : c.L ≤ 2 ^ 52) (hN' : c.N ≤ 2 ^ 10) (hJ : J < 2 ^ 10) (hG : c.Filters J mr psi phi) {B : ℝ}
    (hB : ∀ l, 0 ≤ l → l < c.L → frameSum c.J_min J c.L psi phi l ≤ B) (hB2 : B ≤ 2)
    (hf : E.sphForward f c.L c.spin c.sampling c.nside c.reality = .ok (flm.map C64.ofC)) (hbl : BL2 c.L 0 flm) (hherm : c.reality = true → Herm2 flm)
    (hfb : ∀ l m, ‖co2 flm l m‖ ≤ 2 ^ (300 : ℤ)) :
    ∃ w s g g', Base.analysis_loopedO O sg E jm (.ok (psi.map C64.ofC, phi.map F64.fin)) f c.L c.N c.J_min c.lam c.spin c.sampling c.nside c.reality mr = .ok (w, s) ∧
      Base.synthesis_loopedO O sg E jm (.ok (psi.map C64.ofC, phi.map F64.fin)) w s c.L c.N c.J_min c.lam c.spin c.sampling c.nside c.reality mr =
        E.sphInverse (g.map C64.ofC) c.L c.spin c.sampling c.nside c.reality 0 ∧
      g.r = c.L ∧ g.c = 2 * c.L - 1 ∧ (∀ l m, (c.reality = true → 0 ≤ m) → co2 g l m = co2 g' l m) ∧
      norm2 c.L (fun l m => co2 g' l m - (frameSum c.J_min J c.L psi phi l : ℂ) * co2 flm l m) ≤
        B * ((1 + (c.N * (J + 1) + 4) / 2 ^ 49) * (δ + κ * 2 ^ (-47 : ℤ)) + (c.N * (J + 1) + 4) / 2 ^ 49) * norm2 c.L (co2 flm) +
          (2 * (J + 2) * τ + 2 ^ (-550 : ℤ)) := by
  have hL := hv.top.hL
  have hlam := hv.top.hlam
  have h0 := hv.h0
  have h1 := hv.h1
  have hN := hv.hN
  have hNL := hv.hNL
  have hv1 : ∀ l i, ‖flm.v l i‖ ≤ 2 ^ (300 : ℤ) := fun l i => by
    have := hfb l (i - (c.L - 1))
    rwa [co2, hbl.r, add_sub_cancel] at this
  have hpsi : ∀ j, c.J_min ≤ j → j ≤ J → ∀ l n, 0 ≤ l → l < c.L → ‖psi.v j l n‖ ≤ 2 ^ (30 : ℤ) := fun j a0 a1 l n b0 b1 =>
    frame_psi hG.cols b0 (by omega) ((hB l b0 b1).trans hB2) a0 a1 n
  have hphi : ∀ l, 0 ≤ l → l < c.L → |phi.v l| ≤ 2 ^ (30 : ℤ) := fun l b0 b1 => frame_phi b0 (by omega) ((hB l b0 b1).trans hB2)
  obtain ⟨t, s, A1, A2, A3, A4, A5, A6, A7⟩ := ana_looped64 (J := J) hO hsg hL hL' hlam hN hNL h0 (by omega) hG hbl hherm hv1 hpsi hphi
  have hN0 : (0 : ℝ) ≤ c.N := by exact_mod_cast (by omega : 0 ≤ c.N)
  have hJ0 : (0 : ℝ) ≤ (J : ℝ) := by exact_mod_cast (by omega : 0 ≤ J)
  have he1 : ((c.N : ℝ) * (J + 1) + 4) / 2 ^ 49 ≤ 1 / 100 := by
    have h1 : (c.N : ℝ) ≤ 2 ^ 10 := by exact_mod_cast hN'
    have h2 : (J : ℝ) + 1 ≤ 2 ^ 10 := by exact_mod_cast hJ
    have h3 := mul_le_mul h1 h2 (by positivity) (by positivity)
    rw [div_le_iff₀ (by positivity)]
    norm_num at h3 ⊢
    linarith
  obtain ⟨p, ps, t', s', g', b1, b2, b3, b4, b5, b6, b7, b8⟩ := pipe_core (by positivity) he1 hn hδ hδ1 hκ hκ1 hτ hτ1 hv hL' hJ hG hB hB2 hbl hherm hfb A3 A4 A5 A6 A7
    (R := fun t' s' g'' => (∀ j, c.J_min ≤ j → j ≤ J → BL3 (c.Lj mr j) (c.Nj mr j) 0 (t' j)) ∧ BL2 (c.Ls mr) 0 s' ∧
      ∃ g' : Arr2 ℂ, synLooped O sg c J mr (psi.map C64.ofC) (phi.map F64.fin) (fun j => (t' j).map C64.ofC) (s'.map C64.ofC) = g'.map C64.ofC ∧
        g'.r = c.L ∧ g'.c = 2 * c.L - 1 ∧ ∀ l m, (c.reality = true → 0 ≤ m) → co2 g' l m = co2 g'' l m) fun t' s' hpb hs'b hte hse => by
    obtain ⟨g, r, h⟩ := syn_looped64 (J := J) hO hsg hL hL' hlam hN hN' h0 (by omega) hJ hG hpsi hphi hpb hs'b hte hse
    exact ⟨g, ⟨hpb, hs'b, r⟩, h⟩
  obtain ⟨r1, r2, g, r3, r4, r5, r6⟩ := b5
  refine ⟨_, _, g, g', ana_looped_run hv hG hbl hsh.alloc hf A1 A2 b1 b2, ?_, r4, r5, r6, b8⟩
  rw [syn_looped_run hv hG (hsh.scal _ _ b2) (fun j a0 a1 => hsh.wav j _ _ a0 a1 (b1 j a0 (by omega))) r1 r2 b3 b4, r3]

theorem norm2_mask {L : ℤ} {reality : Bool} {a b b' : ℤ → ℤ → ℂ} {X : ℝ} (h : norm2 L (fun l m => b' l m - a l m) ≤ X)
    (hb : ∀ l m, (reality = true → 0 ≤ m) → b l m = b' l m) :
    norm2 L (fun l m => if reality = true ∧ m < 0 then 0 else b l m - a l m) ≤ X := by
  refine (norm2_mono L fun l m => ?_).trans h
  split_ifs with hR
  · rw [norm_zero]; exact norm_nonneg _
  · rw [hb l m fun h => by by_contra h'; exact hR ⟨h, by omega⟩]

/-- **C112** `analysis_looped` and then `synthesis_looped` in double precision, with or without multiresolution, when the filters computed inside have a frame
sum of at most `B`: the coefficients handed to the final inverse transform are those of the input times the frame sum, up to a relative error of
norm and an absolute error for underflow. For real signals only the orders `m ≥ 0`, the only ones an inverse transform with `reality` reads, are
claimed: the code adds to the others what it should store there. `sg k x` is `(-1)**k * x`. -/
theorem C112_round_trip {filters : Py (Arr3 C64 × Arr1 F64)} (hflt : filters = .ok (psi.map C64.ofC, phi.map F64.fin))
    (hO : O.Good) (hsg : ∀ k z, sg k (.ofC z) = .ofC ((-1 : ℂ) ^ k * z)) (hn : E.Near c J mr δ κ τ) (hsh : E.LoopedShaped jm c J mr)
    (hδ : 0 ≤ δ) (hδ1 : δ ≤ 1) (hκ : 0 ≤ κ) (hκ1 : κ ≤ 2 ^ 20) (hτ : 0 ≤ τ) (hτ1 : τ ≤ 1)
    (hv : c.Valid jm J) (hL' : c.L ≤ 2 ^ 52) (hN' : c.N ≤ 2 ^ 10) (hJ : J < 2 ^ 10) (hG : c.Filters J mr psi phi) {B : ℝ}
    (hB : ∀ l, 0 ≤ l → l < c.L → frameSum c.J_min J c.L psi phi l ≤ B) (hB2 : B ≤ 2)
    (hf : E.sphForward f c.L c.spin c.sampling c.nside c.reality = .ok (flm.map C64.ofC)) (hbl : BL2 c.L 0 flm) (hherm : c.reality = true → Herm2 flm)
    (hfb : ∀ l m, ‖co2 flm l m‖ ≤ 2 ^ (300 : ℤ)) :
    ∃ w s g, Base.analysis_loopedO O sg E jm filters f c.L c.N c.J_min c.lam c.spin c.sampling c.nside c.reality mr = .ok (w, s) ∧
      Base.synthesis_loopedO O sg E jm filters w s c.L c.N c.J_min c.lam c.spin c.sampling c.nside c.reality mr =
        E.sphInverse (g.map C64.ofC) c.L c.spin c.sampling c.nside c.reality 0 ∧
      g.r = c.L ∧ g.c = 2 * c.L - 1 ∧
      norm2 c.L (fun l m => if c.reality = true ∧ m < 0 then 0 else co2 g l m - (frameSum c.J_min J c.L psi phi l : ℂ) * co2 flm l m) ≤
        B * ((1 + (c.N * (J + 1) + 4) / 2 ^ 49) * (δ + κ * 2 ^ (-47 : ℤ)) + (c.N * (J + 1) + 4) / 2 ^ 49) * norm2 c.L (co2 flm) +
          (2 * (J + 2) * τ + 2 ^ (-550 : ℤ)) := by
  subst hflt
  obtain ⟨w, s, g, g', h1, h2, h3, h4, h5, h6⟩ := looped_core hO hsg hn hsh hδ hδ1 hκ hκ1 hτ hτ1 hv hL' hN' hJ hG hB hB2 hf hbl hherm hfb
  exact ⟨w, s, g, h1, h2, h3, h4, norm2_mask h6 h5⟩

/-- **C112** the same with the filters the looped transforms use, computed in double precision (`lam = 2`): nothing is raised, and the coefficients of the
input come back, up to a relative error of norm: `1.01 (δ + κ 2^-47)` plus `0.0021`, or plus `(N (J + 1) + 40) 2^-48` for `L ≤ 17`. -/
theorem C112_error {m : Libm} {lg : F64 → F64} (hm : m.Ok) (hsp : Libm.Special m lg)
    (hO : O.Good) (hsg : ∀ k z, sg k (.ofC z) = .ofC ((-1 : ℂ) ^ k * z)) (hn : E.Near c J mr δ κ τ) (hsh : E.LoopedShaped jm c J mr)
    (hδ : 0 ≤ δ) (hδ1 : δ ≤ 1) (hκ : 0 ≤ κ) (hκ1 : κ ≤ 2 ^ 20) (hτ : 0 ≤ τ) (hτ1 : τ ≤ 1)
    (hv : c.Valid jm J) (hlam : c.lam = 2) (hL' : c.L ≤ 2 ^ 52) (hN' : c.N ≤ 990) (hJ : J ≤ 1000) (hre : c.reality = true → c.N ≤ 41) (hs : |c.spin| < c.L)
    (hf : E.sphForward f c.L c.spin c.sampling c.nside c.reality = .ok (flm.map C64.ofC)) (hbl : BL2 c.L c.spin flm) (hherm : c.reality = true → Herm2 flm)
    (hfb : ∀ l m, ‖co2 flm l m‖ ≤ 2 ^ (300 : ℤ)) :
    ∃ w s g, Base.analysis_loopedO O sg E jm (filters_directional64 m lg jm c.L c.N c.J_min c.lam c.spin) f
        c.L c.N c.J_min c.lam c.spin c.sampling c.nside c.reality mr = .ok (w, s) ∧
      Base.synthesis_loopedO O sg E jm (filters_directional64 m lg jm c.L c.N c.J_min c.lam c.spin) w s
        c.L c.N c.J_min c.lam c.spin c.sampling c.nside c.reality mr = E.sphInverse (g.map C64.ofC) c.L c.spin c.sampling c.nside c.reality 0 ∧
      g.r = c.L ∧ g.c = 2 * c.L - 1 ∧
      norm2 c.L (fun l m => if c.reality = true ∧ m < 0 then 0 else co2 g l m - co2 flm l m) ≤
        (1.01 * (δ + κ * 2 ^ (-47 : ℤ)) + (if c.L ≤ 17 then ((c.N : ℝ) * (J + 1) + 40) / 2 ^ 48 else 0.0021)) * norm2 c.L (co2 flm) +
        (2 * (J + 2) * τ + 2 ^ (-550 : ℤ)) := by
  have hT := hv.top
  rw [hlam] at hT
  obtain ⟨psi, -, phi, h2, -⟩ := C106_looped hm hsp hT (by omega) hJ hv.hN hN' hv.h0 hv.h1 c.spin
  have h : filters_directional64 m lg jm c.L c.N c.J_min c.lam c.spin = .ok (psi.map C64.ofC, phi.map F64.fin) := by rw [hlam]; exact h2
  have hG := C106_filters hm hsp hv.core hlam (by omega) hJ hN' hre h mr
  have hadm := fun l a0 a1 a2 => C106_admissible hm hsp hT (by omega) hJ hv.hN hN' hv.h0 hv.h1 h2 (l := l) a0 a1 a2
  have hN0 : (0 : ℝ) ≤ c.N := by have := hv.hN; exact_mod_cast (by omega : 0 ≤ c.N)
  have hJ0 : (0 : ℝ) ≤ (J : ℝ) := by have := hv.h0; have := hv.h1; exact_mod_cast (by omega : 0 ≤ J)
  have hN1 : (c.N : ℝ) ≤ 990 := by exact_mod_cast hN'
  have hJ1 : (J : ℝ) + 1 ≤ 1001 := by have : (J : ℝ) ≤ 1000 := by exact_mod_cast hJ
                                      linarith
  have hNJ := mul_le_mul hN1 hJ1 (by positivity) (by positivity)
  set ρ : ℝ := if c.L ≤ 17 then 1 / 2 ^ 44 else 0.002 + 1 / 2 ^ 28 with hρ
  have hρ0 : 0 ≤ ρ := by rw [hρ]; split_ifs <;> norm_num
  have hρ1 : ρ ≤ 1 / 200 := by rw [hρ]; split_ifs <;> norm_num
  have hFρ : ∀ l, 0 ≤ l → l < c.L → |c.spin| ≤ l → |frameSum c.J_min J c.L psi phi l - 1| ≤ ρ := by
    intro l a0 a1 a2
    obtain ⟨b1, b2, b3, b4, b5⟩ := hadm l a0 a1 a2
    rw [abs_le, hρ]
    split_ifs with c1
    · have hN41 : c.N ≤ 41 := by have := hv.hNL; omega
      have := b3 hN41
      have := b5 hN41 c1
      constructor <;> linarith
    · norm_num at *
      constructor <;> linarith
  have he : ((c.N : ℝ) * (J + 1) + 4) / 2 ^ 49 ≤ 1 / 400 := by
    rw [div_le_iff₀ (by positivity)]
    norm_num at hNJ ⊢
    linarith
  rw [h]
  obtain ⟨w, s, g, g', h1, h2, h3, h4, h5, h6⟩ := looped_core hO hsg hn hsh hδ hδ1 hκ hκ1 hτ hτ1 hv hL' (by omega) (by omega) hG
    (frame_bound hG hρ0 hFρ) (by linarith) hf hbl.zero_spin hherm hfb
  refine ⟨w, s, g, h1, h2, h3, h4, norm2_mask ?_ h5⟩
  refine (gain_core hv.top.hL hL' hρ0 hρ1 hFρ hbl (by positivity) he (by positivity) h6).trans (add_le_add (mul_le_mul_of_nonneg_right ?_ (norm2_nonneg _ _)) le_rfl)
  rw [add_assoc]
  refine add_le_add le_rfl ?_
  have hx : 0 ≤ (c.N : ℝ) * (J + 1) := by positivity
  rw [hρ]
  clear * - hx hNJ
  generalize (c.N : ℝ) * (J + 1) = x at *
  split_ifs <;> norm_num at hNJ ⊢ <;> linarith

end

/-- **C112** the model of `(-1)**k * x` changes the sign for odd `k` ... -/
theorem C112_signs (k : ℤ) (z : ℂ) : C64.sign k (.ofC z) = .ofC ((-1 : ℂ) ^ k * z) := by
  unfold C64.sign
  split_ifs with h
  · rw [Even.neg_one_zpow (Int.even_iff.2 h), one_mul]
  · rw [Odd.neg_one_zpow (Int.odd_iff.2 (by omega)), neg_one_mul]
    rfl

/-- **C112** ... and this is what multiplying a double precision number by the double precision number `(-1)**k` gives, as in NumPy. -/
theorem C112_sign (k : ℤ) {z : ℂ} (hre : Dbl z.re) (him : Dbl z.im) : Ops.ieee.mul (.ofC ((-1 : ℂ) ^ k)) (.ofC z) = C64.sign k (.ofC z) := by
  have neg : ∀ {x : ℝ}, Dbl x → Dbl (-x) := fun ⟨m, e, a, b, c, d⟩ => ⟨-m, e, by rwa [abs_neg], b, c, by rw [d]; push_cast; ring⟩
  have h0 : F64.of 0 = .fin 0 := C111_double ⟨0, 0, by norm_num, by norm_num, by norm_num, by norm_num⟩
  rw [C112_signs]
  rcases Int.even_or_odd k with h | h
  · rw [h.neg_one_zpow, one_mul]
    show C64.mul _ _ = _
    simp [C64.mul, C64.ofC, F64.mul, F64.sub, F64.neg, F64.add, C111_double hre, C111_double him, h0]
  · rw [h.neg_one_zpow, neg_one_mul]
    show C64.mul _ _ = _
    simp [C64.mul, C64.ofC, F64.mul, F64.sub, F64.neg, F64.add, C111_double (neg hre), C111_double (neg him), h0]

/-! ### Non-vacuity -/

theorem toyB_loopedShaped (mr : Bool) : toyB.LoopedShaped j_max toyCfg 4 mr where
  wav := (toyB_shaped mr).wav
  scal := (toyB_shaped mr).scal
  alloc := by
    have hJ : j_max toyCfg.L toyCfg.lam = .ok 4 := toyCfg_top.hJ
    unfold Base.construct_fO
    rw [hJ]
    exact ⟨_, rfl⟩

/-- a round trip of `Y_{5,2}` in double precision, `L = 16`, `N = 3`, `J_min = 1`, with and without multiresolution -/
example (mr : Bool) : ∃ w s g, Base.analysis_loopedO Ops.ieee C64.sign toyB j_max (filters_directional64 Libm.exact lgExact j_max 16 3 1 2 0)
      (.inl (toyFlm.map C64.ofC)) 16 3 1 2 0 "mw" none false mr = .ok (w, s) ∧
    Base.synthesis_loopedO Ops.ieee C64.sign toyB j_max (filters_directional64 Libm.exact lgExact j_max 16 3 1 2 0) w s 16 3 1 2 0 "mw" none false mr =
      .ok (.inl (g.map C64.ofC)) ∧
    norm2 16 (fun l m => co2 g l m - if l = 5 ∧ m = 2 then 1 else 0) ≤ 1 / 2 ^ 41 := by
  obtain ⟨w, s, g, h1, h2, h3, h4, h5⟩ := C112_error (E := toyB) (f := (.inl (toyFlm.map C64.ofC) : Arr2 C64 ⊕ Arr3 C64)) (flm := toyFlm) Libm.exact_ok
    lgExact_special C105_ieee C112_signs (toyB_near toyCfg 4 mr) (toyB_loopedShaped mr)
    le_rfl zero_le_one zero_le_one (by norm_num) le_rfl zero_le_one toyCfg_valid rfl (by norm_num [toyCfg]) (by norm_num [toyCfg]) (by norm_num) (by simp [toyCfg])
    (by norm_num [toyCfg]) toyFlm_forward toyFlm_bl (by simp [toyCfg]) toyFlm_le
  refine ⟨w, s, g, h1, h2.trans (if_pos ⟨h3, h4⟩), ?_⟩
  have e1 : norm2 toyCfg.L (co2 toyFlm) = 1 := toyFlm_norm
  have e2 : ∀ l m, (if toyCfg.reality = true ∧ m < 0 then 0 else co2 g l m - co2 toyFlm l m) = co2 g l m - co2 toyFlm l m := fun l m =>
    if_neg (by simp [toyCfg])
  simp only [← toyFlm_co]
  rw [e1, if_pos (by norm_num [toyCfg])] at h5
  simp only [e2] at h5
  have h5 : norm2 16 (fun l m => co2 g l m - co2 toyFlm l m) ≤ (1.01 * (0 + 1 * 2 ^ (-47 : ℤ)) + (((3 : ℤ) : ℝ) * (((4 : ℤ) : ℝ) + 1) + 40) / 2 ^ 48) * 1 +
    (2 * (((4 : ℤ) : ℝ) + 2) * 0 + 2 ^ (-550 : ℤ)) := h5
  refine h5.trans ?_
  have h6 := p2_mono (show (-550 : ℤ) ≤ -60 by norm_num)
  clear h5
  generalize (2 : ℝ) ^ (-550 : ℤ) = P at *
  norm_num at h6 ⊢
  linarith

end S2wav
