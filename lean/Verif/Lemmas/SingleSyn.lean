import Verif.Lemmas.SingleEntry
import Verif.Lemmas.Coeff

/-! # The harmonic-space steps in single precision as a whole -/

namespace S2wav.Single
open Classical

variable {O : Ops C64 F64} {L N J J_min : ℤ} {lam : ℝ} {psi : Arr3 ℂ} {phi : Arr1 ℝ} {flm : Arr2 ℂ}

/-- the Wigner coefficients computed from the coefficients of a signal -/
theorem anaWO_single (hO : Good O) (hL : L ≤ 2 ^ 23) (hf : ∀ l m, ‖flm.v l m‖ ≤ 2 ^ (20 : ℤ)) :
    ∃ t' : ℤ → ℤ → ℤ → ℤ → Arr3 ℂ, ∀ j Lj Nj L0j, (∀ l k, 0 ≤ l → l < L → ‖psi.v j l k‖ ≤ 2 ^ (12 : ℤ)) → 0 ≤ L0j → Lj ≤ L →
      anaWO O L Lj Nj L0j (psi.map C64.ofC) j (flm.map C64.ofC) = (t' j Lj Nj L0j).map C64.ofC ∧
      (t' j Lj Nj L0j).d = 2 * Nj - 1 ∧ (t' j Lj Nj L0j).r = Lj ∧ (t' j Lj Nj L0j).c = 2 * Lj - 1 ∧
      ∀ k l m, 0 ≤ l → l < Lj →
        Nr 5 (‖flm.v l (L - Lj + m)‖ * (‖psi.v j l (L - Nj + k)‖ * k8 l))
          (‖flm.v l (L - Lj + m)‖ * (‖psi.v j l (L - Nj + k)‖ * k8 l + eta) + eta + eta)
          ((t' j Lj Nj L0j).v k l m) ((anaW L Lj Nj L0j psi j flm).v k l m) ∧
        ‖(t' j Lj Nj L0j).v k l m - (anaW L Lj Nj L0j psi j flm).v k l m‖ ≤
          ((1 + uu) ^ 5 - 1) * ‖(anaW L Lj Nj L0j psi j flm).v k l m‖ + (1 + uu) ^ 5 * ((‖flm.v l (L - Lj + m)‖ + 2) * eta) := by
  have key : ∀ j l k m : ℤ, ∃ z : ℂ, 0 ≤ l → l < 2 ^ 23 → ‖psi.v j l k‖ ≤ 2 ^ (12 : ℤ) →
      O.add 0 (O.mul (.ofC (flm.v l m)) (O.mul (O.conj (.ofC (psi.v j l k))) (O.ofReal (O.c8 l)))) = .ofC z ∧
      Nr 5 (‖flm.v l m‖ * (‖psi.v j l k‖ * k8 l)) (‖flm.v l m‖ * (‖psi.v j l k‖ * k8 l + eta) + eta + eta) z
        (flm.v l m * ((starRingEnd ℂ) (psi.v j l k) * (k8 l : ℂ))) := by
    intro j l k m
    by_cases h : 0 ≤ l ∧ l < 2 ^ 23 ∧ ‖psi.v j l k‖ ≤ 2 ^ (12 : ℤ)
    · obtain ⟨z, hz⟩ := ana_entry hO h.1 h.2.1 (hf l m) h.2.2
      exact ⟨z, fun _ _ _ => hz⟩
    · exact ⟨0, fun a b c => absurd ⟨a, b, c⟩ h⟩
  choose w hw using key
  refine ⟨fun j Lj Nj L0j => Arr3.of (2 * Nj - 1) Lj (2 * Lj - 1) fun k l m =>
    if k % 2 = 0 ∧ L0j ≤ l then w j l (L - Nj + k) (L - Lj + m) else 0, fun j Lj Nj L0j hp h0 h1 => ⟨?_, rfl, rfl, rfl, ?_⟩⟩
  · rw [map_ofC_of3]
    refine Arr3.of_congr fun k l m a b c d e f => ?_
    rw [map_ofC3, map_ofC2]
    by_cases h : k % 2 = 0 ∧ L0j ≤ l
    · rw [if_pos h, if_pos h]
      exact (hw j l _ _ (by omega) (by omega) (hp l _ c (by omega))).1
    · rw [if_neg h, if_neg h]; rfl
  · intro k l m c d
    have he := eta_pos
    have hk := (k8_bounds c).1
    have zero : Nr 5 (‖flm.v l (L - Lj + m)‖ * (‖psi.v j l (L - Nj + k)‖ * k8 l))
          (‖flm.v l (L - Lj + m)‖ * (‖psi.v j l (L - Nj + k)‖ * k8 l + eta) + eta + eta) 0 0 := by
      have hx : 0 ≤ ‖flm.v l (L - Lj + m)‖ * (‖psi.v j l (L - Nj + k)‖ * k8 l) := by positivity
      have hy : 0 ≤ ‖flm.v l (L - Lj + m)‖ * eta := by positivity
      exact (Nr.refl (x := 0) (by rw [norm_zero]; exact hx)).mono (Nat.zero_le _) (by rw [mul_add]; linarith)
    have zero2 : ‖(0 : ℂ) - 0‖ ≤ ((1 + uu) ^ 5 - 1) * ‖(0 : ℂ)‖ + (1 + uu) ^ 5 * ((‖flm.v l (L - Lj + m)‖ + 2) * eta) := by
      have hu := uu_pos
      rw [sub_zero, norm_zero, mul_zero, zero_add]; positivity
    unfold anaW
    by_cases hr : 0 ≤ k ∧ k < 2 * Nj - 1 ∧ 0 ≤ l ∧ l < Lj ∧ 0 ≤ m ∧ m < 2 * Lj - 1
    · rw [Arr3.of_v _ _ _ _ _ _ _ hr, Arr3.of_v _ _ _ _ _ _ _ hr]
      by_cases h : k % 2 = 0 ∧ L0j ≤ l
      · rw [if_pos h, if_pos h]
        have n := (hw j l (L - Nj + k) (L - Lj + m) (by omega) (by omega) (hp l _ c (by omega))).2
        refine ⟨n, n.err.trans (le_of_eq ?_)⟩
        have e : ‖flm.v l (L - Lj + m) * ((starRingEnd ℂ) (psi.v j l (L - Nj + k)) * ((8 * Real.pi ^ 2 / (2 * l + 1) : ℝ) : ℂ))‖ =
            ‖flm.v l (L - Lj + m)‖ * (‖psi.v j l (L - Nj + k)‖ * k8 l) := by
          rw [norm_mul, norm_mul, RCLike.norm_conj, Complex.norm_real]
          congr 2
          exact Real.norm_of_nonneg hk.le
        rw [e]
        ring
      · rw [if_neg h, if_neg h]
        exact ⟨zero, zero2⟩
    · rw [Arr3.of_out _ _ _ _ _ _ _ hr, Arr3.of_out _ _ _ _ _ _ _ hr]
      exact ⟨zero, zero2⟩

/-- the scaling coefficients computed from the coefficients of a signal -/
theorem anaSO_single (hO : Good O) (hL : L ≤ 2 ^ 23) (hq : ∀ l, 0 ≤ l → l < L → |phi.v l| ≤ 2 ^ (12 : ℤ)) (hf : ∀ l m, ‖flm.v l m‖ ≤ 2 ^ (20 : ℤ)) :
    ∃ s' : ℤ → Arr2 ℂ, ∀ Ls, Ls ≤ L →
      anaSO O L Ls (phi.map F64.fin) (flm.map C64.ofC) = (s' Ls).map C64.ofC ∧
      (s' Ls).r = Ls ∧ (s' Ls).c = 2 * Ls - 1 ∧
      ∀ l m, 0 ≤ l → l < Ls →
        Nr 3 (‖flm.v l (L - Ls + m)‖ * (|phi.v l| * k4 l)) (‖flm.v l (L - Ls + m)‖ * (|phi.v l| * k4 l + eta) + eta)
          ((s' Ls).v l m) ((anaS L Ls phi flm).v l m) ∧
        ‖(s' Ls).v l m - (anaS L Ls phi flm).v l m‖ ≤
          ((1 + uu) ^ 3 - 1) * ‖(anaS L Ls phi flm).v l m‖ + (1 + uu) ^ 3 * ((‖flm.v l (L - Ls + m)‖ + 1) * eta) := by
  have key : ∀ l m : ℤ, ∃ z : ℂ, 0 ≤ l → l < L →
      O.mul (.ofC (flm.v l m)) (O.ofReal (O.rmul (.fin (phi.v l)) (O.c4 l))) = .ofC z ∧
      Nr 3 (‖flm.v l m‖ * (|phi.v l| * k4 l)) (‖flm.v l m‖ * (|phi.v l| * k4 l + eta) + eta) z
        (flm.v l m * ((phi.v l * k4 l : ℝ) : ℂ)) := by
    intro l m
    by_cases h : 0 ≤ l ∧ l < L
    · obtain ⟨z, hz, n, _⟩ := scal_entry hO h.1 (by omega) (hq l h.1 h.2) (Nat.zero_le _) (Nr.refl (le_refl ‖flm.v l m‖)) ((hf l m).trans (p2_mono (by norm_num)))
      exact ⟨z, fun _ _ => ⟨hz, n⟩⟩
    · exact ⟨0, fun a b => absurd ⟨a, b⟩ h⟩
  choose w hw using key
  refine ⟨fun Ls => Arr2.of Ls (2 * Ls - 1) fun l m => w l (L - Ls + m), fun Ls h1 => ⟨?_, rfl, rfl, ?_⟩⟩
  · rw [map_ofC_of2]
    refine Arr2.of_congr fun l m a b c d => ?_
    rw [map_fin1, map_ofC2]
    exact (hw l _ (by omega) (by omega)).1
  · intro l m c d
    have he := eta_pos
    have hk := (k4_bounds c).1
    unfold anaS
    by_cases hr : 0 ≤ l ∧ l < Ls ∧ 0 ≤ m ∧ m < 2 * Ls - 1
    · rw [Arr2.of_v _ _ _ _ _ hr, Arr2.of_v _ _ _ _ _ hr]
      have n := (hw l (L - Ls + m) (by omega) (by omega)).2
      refine ⟨n, n.err.trans (le_of_eq ?_)⟩
      have e : ‖flm.v l (L - Ls + m) * ((phi.v l * Real.sqrt (4 * Real.pi / (2 * l + 1)) : ℝ) : ℂ)‖ =
          ‖flm.v l (L - Ls + m)‖ * (|phi.v l| * k4 l) := by
        rw [norm_mul, Complex.norm_real, norm_mul, Real.norm_eq_abs]
        congr 2
        exact Real.norm_of_nonneg hk.le
      rw [e]
      ring
    · rw [Arr2.of_out _ _ _ _ _ hr, Arr2.of_out _ _ _ _ _ hr]
      have hx : 0 ≤ ‖flm.v l (L - Ls + m)‖ * (|phi.v l| * k4 l) := by positivity
      have hy : 0 ≤ ‖flm.v l (L - Ls + m)‖ * eta := by positivity
      refine ⟨(Nr.refl (x := 0) (by rw [norm_zero]; exact hx)).mono (Nat.zero_le _) (by rw [mul_add]; linarith), ?_⟩
      have hu := uu_pos
      rw [sub_zero, norm_zero, mul_zero, zero_add]; positivity

variable {mr : Bool}

/-- one coefficient of the synthesised signal -/
theorem syn_entry (hO : Good O) (hL1 : 1 ≤ L) (hL : L ≤ 2 ^ 23) (hlam : 1 < lam) (hN1 : 1 ≤ N) (hN : N ≤ 2 ^ 16) (h0 : 0 ≤ J_min) (h1 : J_min ≤ J + 1) (hJ : J < 2 ^ 16)
    {l m : ℤ} (hl0 : 0 ≤ l) (hl1 : l < L)
    (hp : ∀ j, J_min ≤ j → j ≤ J → ∀ k, ‖psi.v j l k‖ ≤ 2 ^ (12 : ℤ)) (hq : |phi.v l| ≤ 2 ^ (12 : ℤ))
    {t t' : ℤ → Arr3 ℂ} {s s' : Arr2 ℂ} {kt : ℕ} (hkt : kt ≤ 2 ^ 10) {A T : ℤ → ℤ → ℝ} {B S : ℝ}
    (ht : ∀ j, J_min ≤ j → j ≤ J → ∀ k, l < (LN_j L j N lam mr).1 →
      Nr kt (A j k) (T j k) ((t' j).v (2 * k) l (m - (L - (LN_j L j N lam mr).1))) ((t j).v (2 * k) l (m - (L - (LN_j L j N lam mr).1))))
    (hT : ∀ j, J_min ≤ j → j ≤ J → ∀ k, T j k ≤ 2 ^ (42 : ℤ))
    (hs : l < scal_bandlimit L J_min lam mr →
      Nr kt B S (s'.v l (m - (L - scal_bandlimit L J_min lam mr))) (s.v l (m - (L - scal_bandlimit L J_min lam mr))))
    (hS : S ≤ 2 ^ (42 : ℤ)) :
    ∃ z, synSO O L (scal_bandlimit L J_min lam mr) (phi.map F64.fin) (s'.map C64.ofC) l m
        (synPO O mr L N J_min lam (psi.map C64.ofC) (fun j => (t' j).map C64.ofC) (J + 1) l m) = .ofC z ∧
      Nr (kt + N.toNat + (J + 1 - J_min).toNat + 3)
        ((∑ j ∈ Finset.Ico J_min (J + 1), if InW mr L N lam j l m then ∑ k ∈ Finset.Ico 0 (LN_j L j N lam mr).2.1,
            ‖psi.v j l (L - (LN_j L j N lam mr).2.1 + 2 * k)‖ * A j k else 0) +
          if InS mr L J_min lam l m then B * (|phi.v l| * k4 l) else 0)
        ((∑ j ∈ Finset.Ico J_min (J + 1), if InW mr L N lam j l m then (∑ k ∈ Finset.Ico 0 (LN_j L j N lam mr).2.1,
            ‖psi.v j l (L - (LN_j L j N lam mr).2.1 + 2 * k)‖ * T j k + 2 * (LN_j L j N lam mr).2.1 * eta) + eta else 0) +
          if InS mr L J_min lam l m then S * (|phi.v l| * k4 l + eta) + eta + eta else 0)
        z
        (∑ j ∈ Finset.Ico J_min (J + 1),
          synW L (LN_j L j N lam mr).1 (LN_j L j N lam mr).2.1 (LN_j L j N lam mr).2.2 psi j (t j) l m +
        synS L (scal_bandlimit L J_min lam mr) phi s l m) := by
  have he := eta_pos
  have hn : J_min + (((J + 1 - J_min).toNat : ℕ) : ℤ) = J + 1 := by omega
  have dots : ∀ j : ℤ, ∃ z : ℂ, J_min ≤ j → j ≤ J → InW mr L N lam j l m →
      dotO O L (LN_j L j N lam mr).1 (LN_j L j N lam mr).2.1 (psi.map C64.ofC) j ((t' j).map C64.ofC) l m = .ofC z ∧
      Nr (kt + N.toNat + 2) (∑ k ∈ Finset.Ico 0 (LN_j L j N lam mr).2.1, ‖psi.v j l (L - (LN_j L j N lam mr).2.1 + 2 * k)‖ * A j k)
        (∑ k ∈ Finset.Ico 0 (LN_j L j N lam mr).2.1, ‖psi.v j l (L - (LN_j L j N lam mr).2.1 + 2 * k)‖ * T j k + 2 * (LN_j L j N lam mr).2.1 * eta) z
        (∑ k ∈ Finset.Ico 0 (LN_j L j N lam mr).2.1, psi.v j l (L - (LN_j L j N lam mr).2.1 + 2 * k) * (t j).v (2 * k) l (m - (L - (LN_j L j N lam mr).1))) := by
    intro j
    by_cases h : J_min ≤ j ∧ j ≤ J ∧ InW mr L N lam j l m
    · obtain ⟨a, b, c⟩ := h
      have hb := LN_j_Nj_bounds hL1 hlam hN1 j mr
      obtain ⟨z, hz, n⟩ := dot_entry hO (L := L) (Lj := (LN_j L j N lam mr).1) (m := m) (by omega : 0 ≤ (LN_j L j N lam mr).2.1)
        (by omega) (hp j a b) (by omega : kt ≤ 2 ^ 16) (fun k _ _ => ht j a b k c.2.1) (fun k _ _ => hT j a b k)
      exact ⟨z, fun _ _ _ => ⟨hz, n.mono (by omega) le_rfl⟩⟩
    · exact ⟨0, fun a b c => absurd ⟨a, b, c⟩ h⟩
  choose w hw using dots
  have hTb : ∀ j, J_min ≤ j → j ≤ J → InW mr L N lam j l m →
      ∑ k ∈ Finset.Ico 0 (LN_j L j N lam mr).2.1, ‖psi.v j l (L - (LN_j L j N lam mr).2.1 + 2 * k)‖ * T j k + 2 * (LN_j L j N lam mr).2.1 * eta ≤ 2 ^ (72 : ℤ) := by
    intro j a b c
    have hb := LN_j_Nj_bounds hL1 hlam hN1 j mr
    set n := (LN_j L j N lam mr).2.1 with hndef
    have hnR : (n : ℝ) ≤ 2 ^ (16 : ℤ) := by
      have : (n : ℝ) ≤ ((2 ^ 16 : ℤ) : ℝ) := by exact_mod_cast (by omega : n ≤ 2 ^ 16)
      refine this.trans (le_of_eq ?_); norm_num
    refine p2_add (a := 70) (b := 17) _ ?_ ?_ (by norm_num) (by norm_num)
    · have : ∀ k ∈ Finset.Ico (0 : ℤ) n, ‖psi.v j l (L - n + 2 * k)‖ * T j k ≤ 2 ^ (54 : ℤ) := fun k _ =>
        p2_mul _ (hp j a b _) (hT j a b k) ((ht j a b k c.2.1).nonneg.2) (by norm_num)
      refine (Finset.sum_le_card_nsmul _ _ _ this).trans ?_
      rw [Int.card_Ico, nsmul_eq_mul, sub_zero]
      have hc : ((n.toNat : ℕ) : ℝ) = n := by
        have : ((n.toNat : ℤ) : ℝ) = n := by rw [Int.toNat_of_nonneg (by omega)]
        exact_mod_cast this
      rw [hc]
      exact p2_mul _ hnR le_rfl (by positivity) (by norm_num)
    · refine p2_mul (a := 17) (b := 0) _ ?_ eta_le he.le (by norm_num)
      have e : (2 : ℝ) ^ (17 : ℤ) = 2 * 2 ^ (16 : ℤ) := by norm_num
      rw [e]; linarith
  obtain ⟨y, hy, n1, hb1⟩ := loop_entry hO (J_min := J_min) (P := fun j => InW mr L N lam j l m)
    (D := fun j => dotO O L (LN_j L j N lam mr).1 (LN_j L j N lam mr).2.1 (psi.map C64.ofC) j ((t' j).map C64.ofC) l m)
    (K := kt + N.toNat + 2) (by omega) (J + 1 - J_min).toNat (by omega)
    (fun j a b c => ⟨(hw j a (by omega) c).1, (hw j a (by omega) c).2, hTb j a (by omega) c⟩)
  rw [hn] at hy n1 hb1
  have hloop : synPO O mr L N J_min lam (psi.map C64.ofC) (fun j => (t' j).map C64.ofC) (J + 1) l m = .ofC y := by
    rw [← hy]; unfold synPO synWO InW; congr!
  rw [hloop]
  have hsum : ∑ j ∈ Finset.Ico J_min (J + 1), synW L (LN_j L j N lam mr).1 (LN_j L j N lam mr).2.1 (LN_j L j N lam mr).2.2 psi j (t j) l m =
      ∑ j ∈ Finset.Ico J_min (J + 1), if InW mr L N lam j l m then ∑ k ∈ Finset.Ico 0 (LN_j L j N lam mr).2.1,
        psi.v j l (L - (LN_j L j N lam mr).2.1 + 2 * k) * (t j).v (2 * k) l (m - (L - (LN_j L j N lam mr).1)) else 0 := by
    unfold synW InW; congr!
  rw [hsum]
  unfold synSO synS
  by_cases hin : InS mr L J_min lam l m
  · have hin' := hin
    unfold InS at hin'
    rw [if_pos hin', if_pos hin', if_pos hin, if_pos hin, map_fin1, map_ofC2]
    obtain ⟨x, hx, n2, hb2⟩ := scal_entry hO hl0 (by omega : l < 2 ^ 23) hq (by omega : kt ≤ 2 ^ 16) (hs hin.1) hS
    have hnb : ((J + 1 - J_min).toNat : ℝ) ≤ 2 ^ (16 : ℤ) := by
      have : ((J + 1 - J_min).toNat : ℝ) ≤ ((2 ^ 16 : ℕ) : ℝ) := by exact_mod_cast (by omega : (J + 1 - J_min).toNat ≤ 2 ^ 16)
      refine this.trans (le_of_eq ?_); norm_num
    have hb1' := hb1.trans (p2_mul 89 hnb le_rfl (by positivity) (by norm_num))
    obtain ⟨z, hz, hze⟩ := hO.add y x (n1.norm_le.trans (p2_up _ (by omega) hb1' n1.nonneg.2 (by norm_num)))
      (n2.norm_le.trans (p2_up _ (by omega) hb2 n2.nonneg.2 (by norm_num)))
    refine ⟨z, by rw [hx, hz], ?_⟩
    have n3 := n1.add (n2.mono (show kt + 3 ≤ kt + N.toNat + 2 + (J + 1 - J_min).toNat by omega) le_rfl) hze
    rw [← add_assoc]
    exact n3.mono (by omega) le_rfl
  · have hin' := hin
    unfold InS at hin'
    rw [if_neg hin', if_neg hin', if_neg hin, if_neg hin, add_zero, add_zero, add_zero]
    exact ⟨y, rfl, n1.mono (by omega) le_rfl⟩

end S2wav.Single
