import Verif.Lemmas.HarmTrip
import Verif.Lemmas.HarmIeee
import Verif.Props.RoundedDirectional

/-! # C105: the harmonic-space steps in double precision

The directional filters are multiplied into the harmonic coefficients, and multiplied again and summed in the synthesis, by
`_generate_and_apply_wavelets`, `_generate_and_apply_scaling` and `_sum_over_wavelet_and_scaling`
(`s2wav/transforms/wavelet_c.py`). Here these run in any complex arithmetic `O : Ops C64 F64` accurate in the sense of `Ops.Good`;
`C105_ieee` shows this for IEEE doubles with plain left-to-right summation. -/

namespace S2wav
open Classical

/-- arrays of the same shape whose entries agree up to a relative error `ε` and an absolute error `δ` -/
def Near3 (ε δ : ℝ) (a' a : Arr3 ℂ) : Prop :=
  a'.d = a.d ∧ a'.r = a.r ∧ a'.c = a.c ∧ ∀ k l m, ‖a'.v k l m - a.v k l m‖ ≤ ε * ‖a.v k l m‖ + δ

/-- the same in two dimensions -/
def Near2 (ε δ : ℝ) (a' a : Arr2 ℂ) : Prop :=
  a'.r = a.r ∧ a'.c = a.c ∧ ∀ l m, ‖a'.v l m - a.v l m‖ ≤ ε * ‖a.v l m‖ + δ

variable {O : Ops C64 F64} {jm : JMax} {L N J J_min : ℤ} {lam : ℝ} {psi : Arr3 ℂ} {phi : Arr1 ℝ} {flm : Arr2 ℂ}

/-! ### the model: with exact arithmetic it is the one used everywhere else -/

theorem einsumO_exact (A : Arr2 ℂ) (B : Arr3 ℂ) : einsumO_ln_nlm Ops.exact A B = einsum_ln_nlm A B := by
  unfold einsumO_ln_nlm einsum_ln_nlm Ops.exact
  simp only [List.map_map, Function.comp_def, sum_pyRange]

/-- **C105** the programs over an arbitrary arithmetic are, in exact arithmetic, the programs of the exact model, on all inputs. -/
theorem C105_exact :
    (∀ (flm : Arr2 ℂ) (w : Option (Arr3 ℂ)), generate_and_apply_waveletsO Ops.exact flm L N J_min J lam w =
      C.generate_and_apply_wavelets jm flm L N J_min J lam w) ∧
    (∀ (flm : Arr2 ℂ) (w : Option (Arr1 ℝ)), generate_and_apply_scalingO Ops.exact flm L J_min lam w =
      C.generate_and_apply_scaling flm L J_min lam w) ∧
    (∀ (ws : List (Arr3 ℂ)) (s : Arr2 ℂ) (w : Option (Arr3 ℂ × Arr1 ℝ)), sum_over_wavelet_and_scalingO Ops.exact ws s L N J_min J lam w =
      C.sum_over_wavelet_and_scaling ws s L N J_min J lam w) := by
  refine ⟨fun _ _ => rfl, fun _ _ => rfl, fun ws s w => ?_⟩
  unfold sum_over_wavelet_and_scalingO C.sum_over_wavelet_and_scaling
  simp only [einsumO_exact]
  rfl

/-- **C105** IEEE double precision, products by the usual formula and sums from left to right, has the accuracy assumed below. -/
theorem C105_ieee : Ops.ieee.Good := ieee_good

/-! ### analysis -/

theorem pow5_le : (1 + uu) ^ 5 - 1 ≤ 2 ^ (-47 : ℤ) := by
  rw [uu_eq, show (-47 : ℤ) = -((47 : ℕ) : ℤ) by norm_num, zpow_neg, zpow_natCast]
  norm_num

theorem tiny690 {f : ℝ} {k : ℕ} (hk : k ≤ 2 ^ 21) (h0 : 0 ≤ f) (hf : f ≤ 2 ^ (300 : ℤ)) : (1 + uu) ^ k * ((f + 2) * eta) ≤ 2 ^ (-690 : ℤ) := by
  have h2 : f + 2 ≤ 2 ^ (301 : ℤ) := p2_add (a := 300) (b := 1) _ hf (by norm_num) (by norm_num) (by norm_num)
  exact p2_up (a := -699) _ hk (p2_mul (b := -1000) _ h2 le_rfl eta_pos.le (by norm_num)) (by have := eta_pos; positivity) (by norm_num)

/-- **C105** analysis. For coefficients up to `2^300` and filters up to `2^30` in modulus: no exception, no infinity, no NaN, and
every Wigner coefficient and every scaling coefficient is within `2^-47` (relatively; up to underflow) of the one the exact program
returns. -/
theorem C105_analysis (hO : O.Good) (hL : 1 ≤ L) (hL' : L ≤ 2 ^ 52) (hlam : 1 < lam) (hN : 1 ≤ N) (hNL : N ≤ L) (h0 : 0 ≤ J_min) (h1 : J_min ≤ J + 1)
    (hd : J < psi.d) (hr : psi.r = L) (hc : psi.c = 2 * L - 1) (hn : phi.n = L) (hfr : flm.r = L) (hfc : flm.c = 2 * L - 1)
    (hf : ∀ l m, ‖flm.v l m‖ ≤ 2 ^ (300 : ℤ)) (hpsi : ∀ j, J_min ≤ j → j ≤ J → ∀ l n, 0 ≤ l → l < L → ‖psi.v j l n‖ ≤ 2 ^ (30 : ℤ))
    (hphi : ∀ l, 0 ≤ l → l < L → |phi.v l| ≤ 2 ^ (30 : ℤ)) :
    ∃ (w w' : List (Arr3 ℂ)) (s s' : Arr2 ℂ),
      C.generate_and_apply_wavelets jm flm L N J_min J lam (some psi) = .ok w ∧
      C.generate_and_apply_scaling flm L J_min lam (some phi) = .ok s ∧
      generate_and_apply_waveletsO O (flm.map C64.ofC) L N J_min J lam (some (psi.map C64.ofC)) = .ok (w'.map fun a => a.map C64.ofC) ∧
      generate_and_apply_scalingO O (flm.map C64.ofC) L J_min lam (some (phi.map F64.fin)) = .ok (s'.map C64.ofC) ∧
      List.Forall₂ (Near3 (2 ^ (-47 : ℤ)) (2 ^ (-690 : ℤ))) w' w ∧ Near2 (2 ^ (-47 : ℤ)) (2 ^ (-690 : ℤ)) s' s := by
  have hb := scal_bandlimit_bounds hL hlam J_min true
  obtain ⟨t', ht'⟩ := anaWO_double (psi := psi) hO hL' hf
  obtain ⟨s', hs'⟩ := anaSO_double (phi := phi) hO hL' hphi hf
  obtain ⟨S1, S2, S3, S4⟩ := hs' (scal_bandlimit L J_min lam true) hb.2
  have T1 := fun j a0 a1 => ht' j (LN_j L j N lam true).1 (LN_j L j N lam true).2.1 (LN_j L j N lam true).2.2 (hpsi j a0 a1)
    (by rcases hp : LN_j L j N lam true with ⟨Lj, Nj, L0j⟩; exact (LN_bounds hL hN hNL hlam j true hp).2.2.2.2)
    (LN_j_Lj_bounds (N := N) hL hlam j true).2
  have e1 := c_wavelets_eq (jm := jm) (J := J) hL hlam hN h0 h1 flm (fits_of_le hL hN hlam hNL J_min J true psi) hd hr hc hfr hfc
  rw [cutPsi_of_le hL hN hlam hNL] at e1
  refine ⟨_, (pyRange J_min (J + 1)).map fun j => t' j (LN_j L j N lam true).1 (LN_j L j N lam true).2.1 (LN_j L j N lam true).2.2, _,
    s' (scal_bandlimit L J_min lam true), e1, c_scaling_eq hL hlam flm hn hfr hfc, ?_, ?_, ?_, ?_⟩
  · rw [waveletsO_eq O hL hlam hN hNL h0 h1 (flm.map C64.ofC) (psi := psi.map C64.ofC) hd hr hc hfr hfc, List.map_map]
    congr 1
    exact List.map_congr_left fun j hj => by rw [mem_pyRange] at hj; exact (T1 j hj.1 (by omega)).1
  · rw [← harmS_true, harmS_eq O hL hlam (flm.map C64.ofC) (phi := phi.map F64.fin) hn hfr hfc, S1]
  · unfold anaList
    rw [List.forall₂_map_left_iff, List.forall₂_map_right_iff, List.forall₂_same]
    intro j hj
    rw [mem_pyRange] at hj
    rw [if_pos hj.2]
    obtain ⟨-, a, b, c, e⟩ := T1 j hj.1 (by omega)
    refine ⟨a, b, c, fun k l m => ?_⟩
    by_cases hl : 0 ≤ l ∧ l < (LN_j L j N lam true).1
    · refine (e k l m hl.1 hl.2).2.trans (add_le_add (mul_le_mul_of_nonneg_right pow5_le (norm_nonneg _)) ?_)
      exact tiny690 (by norm_num) (norm_nonneg _) (hf _ _)
    · rw [Arr3.junk _ k l m (by rw [b]; tauto), anaW, Arr3.of_out _ _ _ _ _ _ _ (by tauto), sub_zero, norm_zero, mul_zero, zero_add]
      positivity
  · refine ⟨S2, S3, fun l m => ?_⟩
    by_cases hl : 0 ≤ l ∧ l < scal_bandlimit L J_min lam true
    · refine (S4 l m hl.1 hl.2).2.trans (add_le_add (mul_le_mul_of_nonneg_right ?_ (norm_nonneg _)) ?_)
      · exact (sub_le_sub_right (up_mono (by norm_num)) _).trans pow5_le
      · refine le_trans ?_ (tiny690 (f := ‖flm.v l (L - scal_bandlimit L J_min lam true + m)‖) (k := 3) (by norm_num) (norm_nonneg _) (hf _ _))
        have := eta_pos
        have := uu_pos
        gcongr
        norm_num
    · rw [Arr2.junk _ l m (by rw [S2]; tauto), anaS, Arr2.of_out _ _ _ _ _ (by tauto), sub_zero, norm_zero, mul_zero, zero_add]
      positivity

/-! ### synthesis -/

/-- entrywise modulus -/
noncomputable def abs3 (a : Arr3 ℂ) : Arr3 ℂ := Arr3.of a.d a.r a.c fun k l m => (‖a.v k l m‖ : ℂ)
/-- entrywise modulus -/
noncomputable def abs2 (a : Arr2 ℂ) : Arr2 ℂ := Arr2.of a.r a.c fun l m => (‖a.v l m‖ : ℂ)
/-- entrywise modulus -/
noncomputable def abs1 (a : Arr1 ℝ) : Arr1 ℝ := Arr1.of a.n fun l => |a.v l|

theorem abs3_v (a : Arr3 ℂ) (k l m : ℤ) : (abs3 a).v k l m = (‖a.v k l m‖ : ℂ) := by
  unfold abs3
  by_cases h : 0 ≤ k ∧ k < a.d ∧ 0 ≤ l ∧ l < a.r ∧ 0 ≤ m ∧ m < a.c
  · exact Arr3.of_v _ _ _ _ _ _ _ h
  · rw [Arr3.of_out _ _ _ _ _ _ _ h, a.junk _ _ _ h]; simp

theorem abs2_v (a : Arr2 ℂ) (l m : ℤ) : (abs2 a).v l m = (‖a.v l m‖ : ℂ) := by
  unfold abs2
  by_cases h : 0 ≤ l ∧ l < a.r ∧ 0 ≤ m ∧ m < a.c
  · exact Arr2.of_v _ _ _ _ _ h
  · rw [Arr2.of_out _ _ _ _ _ h, a.junk _ _ h]; simp

theorem abs1_v (a : Arr1 ℝ) (l : ℤ) : (abs1 a).v l = |a.v l| := by
  unfold abs1
  by_cases h : 0 ≤ l ∧ l < a.n
  · exact Arr1.of_v _ _ _ h
  · rw [Arr1.of_out _ _ _ h, a.junk _ h]; simp

theorem tiny600 {S : ℝ} {n N : ℕ} (hn : n ≤ 2 ^ 18) (hN : N ≤ 2 ^ 20) (hS : S ≤ 2 ^ (380 : ℤ)) (h0 : 0 ≤ S) :
    2 * (n * ((2 * N + 1) * eta) + (S + 2) * eta) ≤ 2 ^ (-610 : ℤ) := by
  have he := eta_pos
  have hn' : (n : ℝ) ≤ 2 ^ 18 := by exact_mod_cast hn
  have hN' : (N : ℝ) ≤ 2 ^ 20 := by exact_mod_cast hN
  have a : (n : ℝ) * (2 * N + 1) ≤ 2 ^ (40 : ℤ) := by
    have : (n : ℝ) * (2 * N + 1) ≤ 2 ^ 18 * (2 * 2 ^ 20 + 1) := by gcongr
    refine this.trans (by norm_num)
  have b : n * (2 * N + 1) + (S + 2) ≤ (2 : ℝ) ^ (382 : ℤ) :=
    p2_add (a := 40) (b := 381) _ a (p2_add (a := 380) (b := 1) _ hS (by norm_num) (by norm_num) (by norm_num)) (by norm_num) (by norm_num)
  have c : 2 * (n * ((2 * N + 1) * eta) + (S + 2) * eta) = 2 * ((n * (2 * N + 1) + (S + 2)) * eta) := by ring
  rw [c]
  exact p2_mul (a := 1) (b := -618) _ (by norm_num) (p2_mul (b := -1000) _ b le_rfl he.le (by norm_num)) (by positivity) (by norm_num)

/-- the synthesis in double precision, against its closed form in exact arithmetic -/
theorem harm_synthesis {mr : Bool} (hO : O.Good) (hL : 1 ≤ L) (hL' : L ≤ 2 ^ 52) (hlam : 1 < lam) (hN : 1 ≤ N) (hNL : N ≤ L) (hN' : N ≤ 2 ^ 20) (h0 : 0 ≤ J_min) (h1 : J_min ≤ J + 1)
    (hJ : J < 2 ^ 18) (hd : J < psi.d) (hr : psi.r = L) (hc : psi.c = 2 * L - 1) (hn : phi.n = L)
    (hpsi : ∀ j, J_min ≤ j → j ≤ J → ∀ l n, 0 ≤ l → l < L → ‖psi.v j l n‖ ≤ 2 ^ (30 : ℤ)) (hphi : ∀ l, 0 ≤ l → l < L → |phi.v l| ≤ 2 ^ (30 : ℤ))
    {s : Arr2 ℂ} (hsr : s.r = scal_bandlimit L J_min lam mr) (hsc : s.c = 2 * scal_bandlimit L J_min lam mr - 1) (hs : ∀ l m, ‖s.v l m‖ ≤ 2 ^ (380 : ℤ))
    {t : ℤ → Arr3 ℂ} (hw : ∀ j, J_min ≤ j → j < J + 1 → (t j).d = 2 * (LN_j L j N lam mr).2.1 - 1 ∧
      (t j).r = (LN_j L j N lam mr).1 ∧ (t j).c = 2 * (LN_j L j N lam mr).1 - 1) (ht : ∀ j, J_min ≤ j → j ≤ J → ∀ k l m, ‖(t j).v k l m‖ ≤ 2 ^ (380 : ℤ)) :
    ∃ g' : Arr2 ℂ,
      harmSum O mr ((pyRange J_min (J + 1)).map fun j => (t j).map C64.ofC) (s.map C64.ofC) L N J_min J lam
        (some (psi.map C64.ofC, phi.map F64.fin)) = .ok (g'.map C64.ofC) ∧
      g'.r = L ∧ g'.c = 2 * L - 1 ∧
      ∀ l m, ‖g'.v l m - (synA L N J_min J lam mr psi phi t s).v l m‖ ≤
        (N + J + 4) / 2 ^ 49 * ‖(synA L N J_min J lam mr (abs3 psi) (abs1 phi) (fun j => abs3 (t j)) (abs2 s)).v l m‖ + 2 ^ (-610 : ℤ) := by
  have he := eta_pos
  have hb := scal_bandlimit_bounds hL hlam J_min mr
  have key : ∀ l m : ℤ, ∃ z : ℂ, 0 ≤ l → l < L → 0 ≤ m → m < 2 * L - 1 →
      synSO O L (scal_bandlimit L J_min lam mr) (phi.map F64.fin) (s.map C64.ofC) l m
        (synPO O mr L N J_min lam (psi.map C64.ofC) (fun j => (t j).map C64.ofC) (J + 1) l m) = .ofC z ∧
      ‖z - (synA L N J_min J lam mr psi phi t s).v l m‖ ≤
        (N + J + 4) / 2 ^ 49 * ‖(synA L N J_min J lam mr (abs3 psi) (abs1 phi) (fun j => abs3 (t j)) (abs2 s)).v l m‖ + 2 ^ (-610 : ℤ) := by
    intro l m
    by_cases hr : 0 ≤ l ∧ l < L ∧ 0 ≤ m ∧ m < 2 * L - 1
    swap
    · exact ⟨0, fun a b c d => absurd ⟨a, b, c, d⟩ hr⟩
    obtain ⟨hl0, hl1, hm0, hm1⟩ := hr
    set W : ℤ → ℤ → ℝ := fun j k => ‖(t j).v (2 * k) l (m - (L - (LN_j L j N lam mr).1))‖ with hW
    set S := ‖s.v l (m - (L - scal_bandlimit L J_min lam mr))‖ with hS
    obtain ⟨z, hz, nz⟩ := syn_entry hO hL hL' hlam hN hN' h0 h1 hJ (l := l) (m := m) hl0 hl1 (psi := psi) (phi := phi)
      (fun j a0 a1 k => hpsi j a0 a1 l k hl0 hl1) (hphi l hl0 hl1) (t := t) (t' := t) (s := s) (s' := s) (kt := 0) (by norm_num)
      (A := W) (T := W) (B := S) (S := S) (fun j _ _ k _ => Nr.refl le_rfl)
      (fun j a0 a1 k => (ht j a0 a1 _ _ _).trans (p2_mono (by norm_num))) (fun _ => Nr.refl le_rfl) ((hs _ _).trans (p2_mono (by norm_num)))
    refine ⟨z, fun _ _ _ _ => ⟨hz, ?_⟩⟩
    unfold synA
    rw [Arr2.of_v _ _ _ _ _ ⟨hl0, hl1, hm0, hm1⟩, Arr2.of_v _ _ _ _ _ ⟨hl0, hl1, hm0, hm1⟩]
    have kp4 := (k4_bounds hl0).1
    have hG : (∑ j ∈ Finset.Ico J_min (J + 1), synW L (LN_j L j N lam mr).1 (LN_j L j N lam mr).2.1 (LN_j L j N lam mr).2.2 (abs3 psi) j (abs3 (t j)) l m +
        synS L (scal_bandlimit L J_min lam mr) (abs1 phi) (abs2 s) l m) =
        (((∑ j ∈ Finset.Ico J_min (J + 1), if InW mr L N lam j l m then ∑ k ∈ Finset.Ico 0 (LN_j L j N lam mr).2.1,
            ‖psi.v j l (L - (LN_j L j N lam mr).2.1 + 2 * k)‖ * W j k else 0) +
          (if InS mr L J_min lam l m then S * (|phi.v l| * k4 l) else 0) : ℝ) : ℂ) := by
      push_cast
      congr 1
      · refine Finset.sum_congr rfl fun j _ => ?_
        unfold synW InW
        split_ifs
        · push_cast
          exact Finset.sum_congr rfl fun k _ => by rw [abs3_v, abs3_v]
        · rfl
      · unfold synS InS
        split_ifs
        · rw [abs2_v, abs1_v]; push_cast; rfl
        · rfl
    rw [hG, Complex.norm_real, Real.norm_of_nonneg nz.nonneg.1]
    refine nz.err.trans ?_
    have hK : 0 + N.toNat + (J + 1 - J_min).toNat + 3 ≤ 2 ^ 21 := by omega
    have hKR : ((0 + N.toNat + (J + 1 - J_min).toNat + 3 : ℕ) : ℝ) ≤ N + J + 4 := by
      have : ((0 + N.toNat + (J + 1 - J_min).toNat + 3 : ℕ) : ℤ) ≤ N + J + 4 := by omega
      exact_mod_cast this
    have hup := up_le hK
    have hup2 := up_le_two hK
    have hA0 := nz.nonneg.1
    have hAT := nz.2.1
    set U := (1 + uu) ^ (0 + N.toNat + (J + 1 - J_min).toNat + 3)
    have hNr : ((N.toNat : ℕ) : ℝ) = N := by
      have : ((N.toNat : ℤ) : ℝ) = N := by rw [Int.toNat_of_nonneg (by omega)]
      exact_mod_cast this
    have hTA : ((∑ j ∈ Finset.Ico J_min (J + 1), if InW mr L N lam j l m then (∑ k ∈ Finset.Ico 0 (LN_j L j N lam mr).2.1,
            ‖psi.v j l (L - (LN_j L j N lam mr).2.1 + 2 * k)‖ * W j k + 2 * (LN_j L j N lam mr).2.1 * eta) + eta else 0) +
          if InS mr L J_min lam l m then S * (|phi.v l| * k4 l + eta) + eta + eta else 0) ≤
        ((∑ j ∈ Finset.Ico J_min (J + 1), if InW mr L N lam j l m then ∑ k ∈ Finset.Ico 0 (LN_j L j N lam mr).2.1,
            ‖psi.v j l (L - (LN_j L j N lam mr).2.1 + 2 * k)‖ * W j k else 0) +
          (if InS mr L J_min lam l m then S * (|phi.v l| * k4 l) else 0)) +
        (((J + 1 - J_min).toNat : ℕ) * ((2 * (N.toNat : ℕ) + 1) * eta) + (S + 2) * eta) := by
      have hS0 : 0 ≤ S := norm_nonneg _
      have i1 : (if InS mr L J_min lam l m then S * (|phi.v l| * k4 l + eta) + eta + eta else 0) ≤
          (if InS mr L J_min lam l m then S * (|phi.v l| * k4 l) else 0) + (S + 2) * eta := by
        split_ifs
        · exact le_of_eq (by ring)
        · positivity
      have i2 : ∀ j ∈ Finset.Ico J_min (J + 1), (if InW mr L N lam j l m then (∑ k ∈ Finset.Ico 0 (LN_j L j N lam mr).2.1,
            ‖psi.v j l (L - (LN_j L j N lam mr).2.1 + 2 * k)‖ * W j k + 2 * (LN_j L j N lam mr).2.1 * eta) + eta else 0) ≤
          (if InW mr L N lam j l m then ∑ k ∈ Finset.Ico 0 (LN_j L j N lam mr).2.1,
            ‖psi.v j l (L - (LN_j L j N lam mr).2.1 + 2 * k)‖ * W j k else 0) + (2 * (N.toNat : ℕ) + 1) * eta := by
        intro j _
        have hnn : (((LN_j L j N lam mr).2.1 : ℤ) : ℝ) ≤ N := by exact_mod_cast (LN_j_Nj_bounds hL hlam hN j mr).2.1
        rw [hNr]
        split_ifs
        · have := mul_le_mul_of_nonneg_right hnn he.le
          linarith
        · have : (1 : ℝ) ≤ N := by exact_mod_cast hN
          rw [zero_add]; positivity
      have i3 := Finset.sum_le_sum i2
      rw [Finset.sum_add_distrib, Finset.sum_const, Int.card_Ico, nsmul_eq_mul] at i3
      linarith
    have ht6 := tiny600 (n := (J + 1 - J_min).toNat) (N := N.toNat) (S := S) (by omega) (by omega) (hs _ _) (norm_nonneg _)
    have j3 : (2 * ((0 + N.toNat + (J + 1 - J_min).toNat + 3 : ℕ) : ℝ) * uu) ≤ (N + J + 4) / 2 ^ 49 := by
      rw [uu_eq]
      generalize ((0 + N.toNat + (J + 1 - J_min).toNat + 3 : ℕ) : ℝ) = K at *
      rw [show 2 * K * (1 / 2 ^ 50) = K / 2 ^ 49 by ring]
      gcongr
    generalize (∑ j ∈ Finset.Ico J_min (J + 1), if InW mr L N lam j l m then ∑ k ∈ Finset.Ico 0 (LN_j L j N lam mr).2.1,
            ‖psi.v j l (L - (LN_j L j N lam mr).2.1 + 2 * k)‖ * W j k else 0) +
          (if InS mr L J_min lam l m then S * (|phi.v l| * k4 l) else 0) = Aa at *
    generalize ((∑ j ∈ Finset.Ico J_min (J + 1), if InW mr L N lam j l m then (∑ k ∈ Finset.Ico 0 (LN_j L j N lam mr).2.1,
            ‖psi.v j l (L - (LN_j L j N lam mr).2.1 + 2 * k)‖ * W j k + 2 * (LN_j L j N lam mr).2.1 * eta) + eta else 0) +
          if InS mr L J_min lam l m then S * (|phi.v l| * k4 l + eta) + eta + eta else 0) = Tt at *
    have j1 : U * Tt - Aa ≤ (U - 1) * Aa + 2 * (Tt - Aa) := by nlinarith
    have j2 : (U - 1) * Aa ≤ (N + J + 4) / 2 ^ 49 * Aa := mul_le_mul_of_nonneg_right (by linarith) hA0
    generalize (2 : ℝ) ^ (-610 : ℤ) = q at *
    linarith
  choose w hwz using key
  refine ⟨Arr2.of L (2 * L - 1) w, ?_, rfl, rfl, fun l m => ?_⟩
  · rw [harmSum_eq O hL hlam hN hNL h0 h1 (psi := psi.map C64.ofC) (phi := phi.map F64.fin) hd hr hc hn (s := s.map C64.ofC) hsr hsc
      (t := fun j => (t j).map C64.ofC) hw, map_ofC_of2]
    exact congrArg Except.ok (Arr2.of_congr fun l m a b c d => (hwz l m a b c d).1)
  · by_cases hr : 0 ≤ l ∧ l < L ∧ 0 ≤ m ∧ m < 2 * L - 1
    · rw [Arr2.of_v _ _ _ _ _ hr]
      exact (hwz l m hr.1 hr.2.1 hr.2.2.1 hr.2.2.2).2
    · rw [Arr2.of_out _ _ _ _ _ hr, synA, Arr2.of_out _ _ _ _ _ hr, synA, Arr2.of_out _ _ _ _ _ hr, sub_zero, norm_zero, mul_zero, zero_add]
      positivity

/-- **C105** synthesis. For coefficients up to `2^380` and filters up to `2^30` in modulus: no exception, no infinity, no NaN,
and the error of every harmonic coefficient is at most `(N + J + 4) 2^-49` times the value the exact program returns when all
coefficients and filters are replaced by their moduli (up to underflow). -/
theorem C105_synthesis (hO : O.Good) (hL : 1 ≤ L) (hL' : L ≤ 2 ^ 52) (hlam : 1 < lam) (hN : 1 ≤ N) (hNL : N ≤ L) (hN' : N ≤ 2 ^ 20) (h0 : 0 ≤ J_min) (h1 : J_min ≤ J + 1)
    (hJ : J < 2 ^ 18) (hd : J < psi.d) (hr : psi.r = L) (hc : psi.c = 2 * L - 1) (hn : phi.n = L)
    (hpsi : ∀ j, J_min ≤ j → j ≤ J → ∀ l n, 0 ≤ l → l < L → ‖psi.v j l n‖ ≤ 2 ^ (30 : ℤ)) (hphi : ∀ l, 0 ≤ l → l < L → |phi.v l| ≤ 2 ^ (30 : ℤ))
    {s : Arr2 ℂ} (hsr : s.r = scal_bandlimit L J_min lam true) (hsc : s.c = 2 * scal_bandlimit L J_min lam true - 1) (hs : ∀ l m, ‖s.v l m‖ ≤ 2 ^ (380 : ℤ))
    {t : ℤ → Arr3 ℂ} (hw : ∀ j, J_min ≤ j → j < J + 1 → (t j).d = 2 * (LN_j L j N lam true).2.1 - 1 ∧
      (t j).r = (LN_j L j N lam true).1 ∧ (t j).c = 2 * (LN_j L j N lam true).1 - 1) (ht : ∀ j, J_min ≤ j → j ≤ J → ∀ k l m, ‖(t j).v k l m‖ ≤ 2 ^ (380 : ℤ)) :
    ∃ g g' G : Arr2 ℂ,
      C.sum_over_wavelet_and_scaling ((pyRange J_min (J + 1)).map t) s L N J_min J lam (some (psi, phi)) = .ok g ∧
      sum_over_wavelet_and_scalingO O ((pyRange J_min (J + 1)).map fun j => (t j).map C64.ofC) (s.map C64.ofC) L N J_min J lam
        (some (psi.map C64.ofC, phi.map F64.fin)) = .ok (g'.map C64.ofC) ∧
      C.sum_over_wavelet_and_scaling ((pyRange J_min (J + 1)).map fun j => abs3 (t j)) (abs2 s) L N J_min J lam
        (some (abs3 psi, abs1 phi)) = .ok G ∧
      g'.r = L ∧ g'.c = 2 * L - 1 ∧
      ∀ l m, ‖g'.v l m - g.v l m‖ ≤ (N + J + 4) / 2 ^ 49 * ‖G.v l m‖ + 2 ^ (-610 : ℤ) := by
  have hfit := fits_of_le hL hN hlam hNL J_min J true psi
  have hfit' := fits_of_le hL hN hlam hNL J_min J true (abs3 psi)
  have e1 := c_sum_eq (psi := psi) (phi := phi) hL hlam hN h0 h1 ⟨hd, hr, hc, hn⟩ hfit hsr hsc (t := t) hw
  have e2 := c_sum_eq (psi := abs3 psi) (phi := abs1 phi) (s := abs2 s) hL hlam hN h0 h1 ⟨hd, hr, hc, hn⟩ hfit' hsr hsc (t := fun j => abs3 (t j)) hw
  rw [cutPsi_of_le hL hN hlam hNL] at e1 e2
  obtain ⟨g', h, a, b, hg⟩ := harm_synthesis (mr := true) hO hL hL' hlam hN hNL hN' h0 h1 hJ hd hr hc hn hpsi hphi hsr hsc hs hw ht
  exact ⟨_, g', _, e1, h, e2, a, b, hg⟩

/-! ### the round trip -/

/-- **C105** everything in harmonic space in double precision: the directional filters are computed in double precision, multiplied
into the coefficients of a band-limited signal, multiplied again and summed. No exception, no infinity, no NaN, and the
coefficients come back within a relative error of `2^-30` for `L ≤ 2049`, of `2^-41` for `L ≤ 17`, and of
`0.0011` at any band-limit (up to underflow). -/
theorem C105_round_trip {m : Libm} {lg : F64 → F64} {spin : ℤ} (hO : O.Good) (hm : m.Ok) (hsp : Libm.Special m lg) (hT : TopScale jm L 2 J)
    (hL' : L ≤ 2 ^ 52) (hJ : J ≤ 1000) (hN : 1 ≤ N) (hN' : N ≤ 990) (hNL : N ≤ L) (h0 : 0 ≤ J_min) (h1 : J_min < J)
    (h : filters_directional_vectorised64 m lg jm L N J_min 2 spin = .ok (psi.map C64.ofC, phi.map F64.fin))
    (hbl : BL2 L spin flm) (hf : ∀ l m, ‖co2 flm l m‖ ≤ 2 ^ (300 : ℤ)) :
    ∃ (w : List (Arr3 C64)) (s : Arr2 C64) (g : Arr2 ℂ),
      generate_and_apply_waveletsO O (flm.map C64.ofC) L N J_min J 2 (some (psi.map C64.ofC)) = .ok w ∧
      generate_and_apply_scalingO O (flm.map C64.ofC) L J_min 2 (some (phi.map F64.fin)) = .ok s ∧
      sum_over_wavelet_and_scalingO O w s L N J_min J 2 (some (psi.map C64.ofC, phi.map F64.fin)) = .ok (g.map C64.ofC) ∧
      g.r = L ∧ g.c = 2 * L - 1 ∧
      (∀ l m, ‖co2 g l m - co2 flm l m‖ ≤ 0.0011 * ‖co2 flm l m‖ + 2 ^ (-900 : ℤ)) ∧
      (L ≤ 2049 → ∀ l m, ‖co2 g l m - co2 flm l m‖ ≤ 1 / 2 ^ 30 * ‖co2 flm l m‖ + 2 ^ (-900 : ℤ)) ∧
      (L ≤ 17 → ∀ l m, ‖co2 g l m - co2 flm l m‖ ≤ (N + J + 26) / 2 ^ 48 * ‖co2 flm l m‖ + 2 ^ (-900 : ℤ)) := by
  have hL := hT.hL
  have hlam : (1 : ℝ) < 2 := by norm_num
  obtain ⟨X, hd⟩ := dir64_elim hm hsp hT (by omega) hJ hN hN' h0 h1 h
  have hG := dir64_filters (c := ⟨L, N, J_min, 2, spin, "mw", none, false⟩) hsp hL rfl hN h0 h1 (by simp) rfl hd true
  have hv : ∀ l i, flm.v l i = co2 flm l (i - (L - 1)) := fun l i => by rw [co2, hbl.r, add_sub_cancel]
  have hF : ∀ l, 0 ≤ l → l < L → frameSum J_min J L psi phi l ≤ 2 := by
    intro l a b
    by_cases hl : |spin| ≤ l
    · have := (C101_admissible hm hsp hT (by omega) hJ hN hN' h0 h1 h a b hl).2.1
      norm_num at *; linarith
    · have z1 : phi.v l = 0 := by
        by_contra hne
        have := hG.scal l hne
        exact hl this.2
      have z2 : ∀ j k, psi.v j l k = 0 := fun j k => by
        by_contra hne
        have := hG.wav j l (k - (L - 1)) (by show psi.v j l (L - 1 + (k - (L - 1))) ≠ 0; rw [add_sub_cancel]; exact hne)
        exact hl this.2.2.2.2.2
      unfold frameSum
      simp [z1, z2]
  have htri : Tri2 L flm := ⟨hbl.r, hbl.c, fun l m hlm => by
    have := hbl.zero l m (Or.inl hlm)
    rw [co2, hbl.r] at this
    exact this⟩
  obtain ⟨t, s, g, A1, A2, A3, A4, A5, A6, A7, A8, A9⟩ := trip_entry (psi := psi) (phi := phi) hO hL hL' hlam hN hNL (by omega) h0 (by omega : J_min ≤ J + 1) (by omega)
    hG.cols hG.trunc htri (fun l i => by rw [hv]; exact hf _ _) hF
  refine ⟨(pyRange J_min (J + 1)).map fun j => (t j).map C64.ofC, s.map C64.ofC, g, ?_, ?_, ?_, A7, A8, ?_⟩
  · rw [waveletsO_eq O hL hlam hN hNL h0 (by omega) (flm.map C64.ofC) (psi := psi.map C64.ofC) hG.d hG.r hG.cols hbl.r hbl.c]
    congr 1
    exact List.map_congr_left fun j hj => by rw [mem_pyRange] at hj; exact A1 j hj.1 hj.2
  · rw [← harmS_true, harmS_eq O hL hlam (flm.map C64.ofC) (phi := phi.map F64.fin) hG.n hbl.r hbl.c, A3]
  · rw [← harmSum_true, harmSum_eq O hL hlam hN hNL h0 (by omega) (psi := psi.map C64.ofC) (phi := phi.map F64.fin) hG.d hG.r hG.cols hG.n (s := s.map C64.ofC) A4 A5
      (t := fun j => (t j).map C64.ofC) A2, A6]
  have key : ∀ e : ℝ, 0 ≤ e → (∀ l, 0 ≤ l → l < L → |spin| ≤ l → |frameSum J_min J L psi phi l - 1| ≤ e) →
      ∀ l m, ‖co2 g l m - co2 flm l m‖ ≤ (e + (N + J + 10) / 2 ^ 48) * ‖co2 flm l m‖ + 2 ^ (-900 : ℤ) := by
    intro e hepos hFe l m
    have a9 := A9 l (L - 1 + m)
    rw [hv, add_sub_cancel_left] at a9
    have hg : g.v l (L - 1 + m) = co2 g l m := by rw [co2, A7]
    rw [hg] at a9
    by_cases hz : co2 flm l m = 0
    · rw [hz] at a9 ⊢
      simpa using a9
    · have hr : 0 ≤ l ∧ l < L ∧ |spin| ≤ l := by
        refine ⟨?_, ?_, ?_⟩ <;> by_contra hc
        · exact hz (hbl.zero l m (Or.inl (by have := abs_nonneg m; omega)))
        · exact hz (flm.junk _ _ (by have := hbl.r; omega))
        · exact hz (hbl.zero l m (Or.inr (by omega)))
      have e1 : co2 g l m - co2 flm l m = (co2 g l m - (frameSum J_min J L psi phi l : ℂ) * co2 flm l m) +
          ((frameSum J_min J L psi phi l - 1 : ℝ) : ℂ) * co2 flm l m := by
        push_cast; ring
      rw [e1]
      refine (norm_add_le _ _).trans ?_
      rw [norm_mul, Complex.norm_real, Real.norm_eq_abs]
      have := mul_le_mul_of_nonneg_right (hFe l hr.1 hr.2.1 hr.2.2) (norm_nonneg (co2 flm l m))
      rw [add_mul]
      generalize (2 : ℝ) ^ (-900 : ℤ) = q at *
      linarith
  have wk : ∀ a b : ℝ, a ≤ b → (∀ l m, ‖co2 g l m - co2 flm l m‖ ≤ a * ‖co2 flm l m‖ + 2 ^ (-900 : ℤ)) →
      ∀ l m, ‖co2 g l m - co2 flm l m‖ ≤ b * ‖co2 flm l m‖ + 2 ^ (-900 : ℤ) := fun a b hab h l m =>
    (h l m).trans (add_le_add (mul_le_mul_of_nonneg_right hab (norm_nonneg _)) le_rfl)
  have hNR : (N : ℝ) ≤ 990 := by exact_mod_cast hN'
  have hJR : (J : ℝ) ≤ 1000 := by exact_mod_cast hJ
  have hNR0 : (1 : ℝ) ≤ N := by exact_mod_cast hN
  have hJR0 : (0 : ℝ) ≤ J := by exact_mod_cast (by omega : 0 ≤ J)
  refine ⟨wk _ _ ?_ (key (0.001 + 1 / 2 ^ 31) (by norm_num) fun l a1 a2 a3 => ?_), fun hL1 => wk _ _ ?_ (key (1 / 2 ^ 31) (by norm_num) fun l a1 a2 a3 => ?_),
    fun hL1 => wk _ _ ?_ (key (1 / 2 ^ 44) (by norm_num) fun l a1 a2 a3 => ?_)⟩
  · norm_num at *; linarith
  · obtain ⟨b1, b2, b3, b4, b5⟩ := C101_admissible hm hsp hT (by omega) hJ hN hN' h0 h1 h a1 a2 a3
    rw [abs_le]; norm_num at *; constructor <;> linarith
  · norm_num at *; linarith
  · obtain ⟨b1, b2, b3, b4, b5⟩ := C101_admissible hm hsp hT (by omega) hJ hN hN' h0 h1 h a1 a2 a3
    have := b3 hL1
    rw [abs_le]; norm_num at *; constructor <;> linarith
  · norm_num at *; linarith
  · obtain ⟨b1, b2, b3, b4, b5⟩ := C101_admissible hm hsp hT (by omega) hJ hN hN' h0 h1 h a1 a2 a3
    have := b4 (by omega)
    have := b5 (by omega) hL1
    rw [abs_le]; norm_num at *; constructor <;> linarith

/-! ### non-vacuity -/

/-- the round trip of a signal with a single coefficient, all in IEEE doubles with correctly rounded library functions -/
example : ∃ (psi : Arr3 ℂ) (phi : Arr1 ℝ) (w : List (Arr3 C64)) (s : Arr2 C64) (g : Arr2 ℂ),
    filters_directional_vectorised64 Libm.exact lgExact j_max 16 3 0 2 0 = .ok (psi.map C64.ofC, phi.map F64.fin) ∧
    generate_and_apply_waveletsO Ops.ieee ((Arr2.of 16 31 fun l i => if l = 5 ∧ i = 17 then (1 : ℂ) else 0).map C64.ofC) 16 3 0 4 2 (some (psi.map C64.ofC)) = .ok w ∧
    generate_and_apply_scalingO Ops.ieee ((Arr2.of 16 31 fun l i => if l = 5 ∧ i = 17 then (1 : ℂ) else 0).map C64.ofC) 16 0 2 (some (phi.map F64.fin)) = .ok s ∧
    sum_over_wavelet_and_scalingO Ops.ieee w s 16 3 0 4 2 (some (psi.map C64.ofC, phi.map F64.fin)) = .ok (g.map C64.ofC) ∧
    ‖co2 g 5 2 - 1‖ ≤ 1 / 2 ^ 42 ∧ ‖co2 g 5 1‖ ≤ 2 ^ (-900 : ℤ) := by
  have hJ : j_max 16 2 = .ok 4 := by
    have h := j_max_eq (L := 16) (lam := 2) (by norm_num) (by norm_num)
    rw [h]
    have : Real.log ((16 : ℤ) : ℝ) / Real.log 2 = 4 := by
      rw [div_eq_iff (Real.log_pos (by norm_num)).ne']
      have : ((16 : ℤ) : ℝ) = 2 ^ 4 := by norm_num
      rw [this, Real.log_pow]; norm_num
    rw [this]; norm_num
  have hT := TopScale.of_j_max (L := 16) (lam := 2) (by norm_num) (by norm_num) hJ
  obtain ⟨psi, phi, h, -⟩ := C101_directional (N := 3) Libm.exact_ok lgExact_special hT (by norm_num) (by norm_num) (by norm_num) (by norm_num) le_rfl
    (by norm_num) 0
  set flm : Arr2 ℂ := Arr2.of 16 31 fun l i => if l = 5 ∧ i = 17 then (1 : ℂ) else 0 with hfl
  have hco : ∀ l m, co2 flm l m = if l = 5 ∧ m = 2 then 1 else 0 := by
    intro l m
    have hr : flm.r = 16 := rfl
    rw [co2, hr, hfl]
    by_cases hb : 0 ≤ l ∧ l < 16 ∧ 0 ≤ 16 - 1 + m ∧ 16 - 1 + m < 31
    · rw [Arr2.of_v _ _ _ _ _ hb]
      exact if_congr (by omega) rfl rfl
    · rw [Arr2.of_out _ _ _ _ _ hb, if_neg (by omega)]
  have hbl : BL2 16 0 flm := ⟨rfl, rfl, fun l m hlm => by
    rw [hco, if_neg]
    rintro ⟨rfl, rfl⟩
    norm_num at hlm⟩
  obtain ⟨w, s, g, h2, h3, h4, -, -, -, -, h5⟩ := C105_round_trip C105_ieee Libm.exact_ok lgExact_special hT (by norm_num) (by norm_num) (by norm_num) (by norm_num)
    (by norm_num) le_rfl (by norm_num) h hbl (fun l m => by
      rw [hco]
      have : (1 : ℝ) ≤ 2 ^ (300 : ℤ) := one_le_zpow₀ (by norm_num) (by norm_num)
      split_ifs
      · rw [norm_one]; exact this
      · rw [norm_zero]; exact zero_le_one.trans this)
  refine ⟨psi, phi, w, s, g, h, h2, h3, h4, ?_, ?_⟩
  · have := h5 (by norm_num) 5 2
    rw [hco, if_pos ⟨rfl, rfl⟩, norm_one] at this
    have hq : (2 : ℝ) ^ (-900 : ℤ) ≤ 1 / 2 ^ 44 := by
      refine (p2_mono (show (-900 : ℤ) ≤ -44 by norm_num)).trans (le_of_eq ?_)
      rw [show (-44 : ℤ) = -((44 : ℕ) : ℤ) by norm_num, zpow_neg, zpow_natCast, one_div]
    generalize (2 : ℝ) ^ (-900 : ℤ) = q at *
    norm_num at *
    linarith
  · have := h5 (by norm_num) 5 1
    rw [hco, if_neg (by norm_num), norm_zero, mul_zero, zero_add, sub_zero] at this
    exact this

/-- analysis and synthesis with filters and coefficients all equal to one -/
example : ∃ w' s' g', generate_and_apply_waveletsO Ops.ieee ((Arr2.of 16 31 fun _ _ => (1 : ℂ)).map C64.ofC) 16 3 0 4 2
      (some ((Arr3.of 5 16 31 fun _ _ _ => (1 : ℂ)).map C64.ofC)) = .ok w' ∧
    generate_and_apply_scalingO Ops.ieee ((Arr2.of 16 31 fun _ _ => (1 : ℂ)).map C64.ofC) 16 0 2
      (some ((Arr1.of 16 fun _ => (1 : ℝ)).map F64.fin)) = .ok s' ∧
    sum_over_wavelet_and_scalingO Ops.ieee ((pyRange 0 5).map fun j => (Arr3.of (2 * (LN_j 16 j 3 2 true).2.1 - 1) (LN_j 16 j 3 2 true).1
        (2 * (LN_j 16 j 3 2 true).1 - 1) fun _ _ _ => (1 : ℂ)).map C64.ofC)
      ((Arr2.of (scal_bandlimit 16 0 2 true) (2 * scal_bandlimit 16 0 2 true - 1) fun _ _ => (1 : ℂ)).map C64.ofC) 16 3 0 4 2
      (some ((Arr3.of 5 16 31 fun _ _ _ => (1 : ℂ)).map C64.ofC, (Arr1.of 16 fun _ => (1 : ℝ)).map F64.fin)) = .ok g' := by
  have b : ∀ k : ℤ, 0 ≤ k → (1 : ℝ) ≤ 2 ^ k := fun k hk => one_le_zpow₀ (by norm_num) hk
  have b3 : ∀ (k : ℤ) (_ : 0 ≤ k) (d r c x y z : ℤ), ‖(Arr3.of d r c fun _ _ _ => (1 : ℂ)).v x y z‖ ≤ 2 ^ k := by
    intro k hk d r c x y z
    by_cases h : 0 ≤ x ∧ x < d ∧ 0 ≤ y ∧ y < r ∧ 0 ≤ z ∧ z < c
    · rw [Arr3.of_v _ _ _ _ _ _ _ h, norm_one]; exact b k hk
    · rw [Arr3.of_out _ _ _ _ _ _ _ h, norm_zero]; exact zero_le_one.trans (b k hk)
  have b2 : ∀ (k : ℤ) (_ : 0 ≤ k) (r c y z : ℤ), ‖(Arr2.of r c fun _ _ => (1 : ℂ)).v y z‖ ≤ 2 ^ k := by
    intro k hk r c y z
    by_cases h : 0 ≤ y ∧ y < r ∧ 0 ≤ z ∧ z < c
    · rw [Arr2.of_v _ _ _ _ _ h, norm_one]; exact b k hk
    · rw [Arr2.of_out _ _ _ _ _ h, norm_zero]; exact zero_le_one.trans (b k hk)
  have b1 : ∀ (k : ℤ) (_ : 0 ≤ k) (n y : ℤ), |(Arr1.of n fun _ => (1 : ℝ)).v y| ≤ 2 ^ k := by
    intro k hk n y
    by_cases h : 0 ≤ y ∧ y < n
    · rw [Arr1.of_v _ _ _ h, abs_one]; exact b k hk
    · rw [Arr1.of_out _ _ _ h, abs_zero]; exact zero_le_one.trans (b k hk)
  obtain ⟨-, w', -, s', -, -, h1, h2, -⟩ := C105_analysis (jm := j_max) (L := 16) (N := 3) (J := 4) (J_min := 0) (lam := 2) C105_ieee
    (psi := Arr3.of 5 16 31 fun _ _ _ => (1 : ℂ)) (phi := Arr1.of 16 fun _ => (1 : ℝ)) (flm := Arr2.of 16 31 fun _ _ => (1 : ℂ))
    (by norm_num) (by norm_num) (by norm_num) (by norm_num) (by norm_num) le_rfl (by norm_num) (by norm_num [Arr3.of]) rfl rfl rfl rfl rfl
    (b2 _ (by norm_num) _ _) (fun j _ _ l n _ _ => b3 _ (by norm_num) _ _ _ j l n) (fun l _ _ => b1 _ (by norm_num) _ l)
  obtain ⟨-, g', -, -, h3, -⟩ := C105_synthesis (L := 16) (N := 3) (J := 4) (J_min := 0) (lam := 2) C105_ieee
    (psi := Arr3.of 5 16 31 fun _ _ _ => (1 : ℂ)) (phi := Arr1.of 16 fun _ => (1 : ℝ))
    (by norm_num) (by norm_num) (by norm_num) (by norm_num) (by norm_num) (by norm_num) le_rfl (by norm_num) (by norm_num) (by norm_num [Arr3.of]) rfl rfl rfl
    (fun j _ _ l n _ _ => b3 _ (by norm_num) _ _ _ j l n) (fun l _ _ => b1 _ (by norm_num) _ l)
    (s := Arr2.of (scal_bandlimit 16 0 2 true) (2 * scal_bandlimit 16 0 2 true - 1) fun _ _ => (1 : ℂ)) rfl rfl (b2 _ (by norm_num) _ _)
    (t := fun j => Arr3.of (2 * (LN_j 16 j 3 2 true).2.1 - 1) (LN_j 16 j 3 2 true).1 (2 * (LN_j 16 j 3 2 true).1 - 1) fun _ _ _ => (1 : ℂ))
    (fun j _ _ => ⟨rfl, rfl, rfl⟩) (fun j _ _ => b3 _ (by norm_num) _ _ _)
  exact ⟨_, _, _, h1, h2, h3⟩

end S2wav
