import Verif.Lemmas.FloatSpinRel
import Verif.Props.RoundedOtherSpin

/-! # C135: overflow of the spin-lowered filters for a positive `spin0`

`filters_directional(..., spin0)` (`Model/IeeeSpin.lean`) multiplies every nonzero entry of degree `l` by
`sqrt((l + |spin0|)! / (l - |spin0|)!)`, computed as a product of doubles. Where that product overflows the entries become infinite or NaN.
No exception is raised. -/

namespace S2wav
open Classical

variable {m : Libm} {lg : F64 → F64} {jm : JMax} {L N J J_min : ℤ} {lam : ℝ}

/-- **C135** for a positive `spin0` of any size, every `lam` and every input: the routine raises exactly when the routine without `spin0`
does (from the same degree on), with the same exception; otherwise each entry is either zero in both or the entry without `spin0` times the
computed normalisation times `(-1)^spin0`. -/
theorem C135_any (m : Libm) (lg : F64 → F64) (jm : JMax) (L N J_min : ℤ) (lam : ℝ) (spin : ℤ) {spin0 : ℤ} (hs : 0 < spin0) :
    (∀ e, filters_directional_spin64 m lg jm L N J_min lam spin spin0 = .error e ↔
      filters_directional64 m lg jm L N J_min lam (max |spin| |spin0|) = .error e) ∧
    ∀ psi0 phi0, filters_directional64 m lg jm L N J_min lam (max |spin| |spin0|) = .ok (psi0, phi0) →
      ∃ psi phi, filters_directional_spin64 m lg jm L N J_min lam spin spin0 = .ok (psi, phi) ∧
        psi.d = psi0.d ∧ psi.r = psi0.r ∧ psi.c = psi0.c ∧ phi.n = phi0.n ∧
        (∀ j l k, (psi0.v j l k = 0 ∧ psi.v j l k = 0) ∨ (max |spin| |spin0| ≤ l ∧ ∃ z, spin_normalization64 l spin0 = .ok z ∧
          psi.v j l k = (psi0.v j l k).mul (C64.ofReal (z.mul (.fin ((-1 : ℝ) ^ spin0)))))) ∧
        ∀ l, (phi0.v l = 0 ∧ phi.v l = 0) ∨ (max |spin| |spin0| ≤ l ∧ ∃ z, spin_normalization64 l spin0 = .ok z ∧
          phi.v l = (phi0.v l).mul (z.mul (.fin ((-1 : ℝ) ^ spin0)))) := by
  choose sn hsn using fun l => spin_normalization64_pos l hs
  have h := filters_directional_spin64_rel m lg jm L N J_min lam spin hs.ne' (sn := sn) fun l _ _ => hsn l
  constructor
  · intro e
    generalize filters_directional64 m lg jm L N J_min lam (max |spin| |spin0|) = A at *
    generalize filters_directional_spin64 m lg jm L N J_min lam spin spin0 = B at *
    cases A with
    | error e1 => cases B with
      | error e2 => rw [show e1 = e2 from h]
      | ok b => exact h.elim
    | ok a => cases B with
      | error e2 => exact h.elim
      | ok b => exact ⟨fun h => (by cases h), fun h => (by cases h)⟩
  · intro psi0 phi0 h0
    rw [h0] at h
    generalize filters_directional_spin64 m lg jm L N J_min lam spin spin0 = B at *
    cases B with
    | error e2 => exact h.elim
    | ok b =>
      obtain ⟨⟨a1, a2, a3, a4⟩, b1, b2⟩ := h
      refine ⟨b.1, b.2, rfl, a1, a2, a3, b1, fun j l k => ?_, fun l => ?_⟩
      · exact (a4 j l k).imp id fun q => ⟨q.1, _, hsn l, q.2⟩
      · exact (b2 l).imp id fun q => ⟨q.1, _, hsn l, q.2⟩

theorem mapC_v (a : Arr3 ℂ) (j l k : ℤ) : (a.map C64.ofC).v j l k = C64.ofC (a.v j l k) := by
  unfold Arr3.map
  by_cases hh : 0 ≤ j ∧ j < a.d ∧ 0 ≤ l ∧ l < a.r ∧ 0 ≤ k ∧ k < a.c
  · rw [Arr3.of_v _ _ _ _ _ _ _ hh]
  · rw [Arr3.of_out _ _ _ _ _ _ _ hh, a.junk _ _ _ hh]; rfl

theorem mapF_v (a : Arr1 ℝ) (l : ℤ) : (a.map F64.fin).v l = F64.fin (a.v l) := by
  unfold Arr1.map
  by_cases hh : 0 ≤ l ∧ l < a.n
  · rw [Arr1.of_v _ _ _ hh]
  · rw [Arr1.of_out _ _ _ hh, a.junk _ hh]; rfl

/-- **C135** at a degree where the product overflows, an entry that is finite and nonzero without `spin0` is not finite with it. -/
theorem C135_overflow {spin spin0 : ℤ} (hs : 0 < spin0) (hs1 : spin0 ≤ 2 ^ 48) {psi0 : Arr3 ℂ} {phi0 : Arr1 ℝ}
    (h : filters_directional64 m lg jm L N J_min lam (max |spin| |spin0|) = .ok (psi0.map C64.ofC, phi0.map F64.fin)) :
    ∃ psi phi, filters_directional_spin64 m lg jm L N J_min lam spin spin0 = .ok (psi, phi) ∧
      ∀ l, l + spin0 ≤ 2 ^ 53 → spin0 ≤ l → 2 ^ (1025 : ℤ) * ((l - spin0).toNat.factorial : ℝ) ≤ ((l + spin0).toNat.factorial : ℝ) →
        (∀ j k, psi0.v j l k ≠ 0 → ∀ w, psi.v j l k ≠ C64.ofC w) ∧ (phi0.v l ≠ 0 → phi.v l = .inf ∨ phi.v l = .ninf) := by
  obtain ⟨psi, phi, h1, -, -, -, -, a, b⟩ := (C135_any m lg jm L N J_min lam spin hs).2 _ _ h
  refine ⟨psi, phi, h1, fun l hl hl' hr => ?_⟩
  have ea : |spin0| = spin0 := abs_of_pos hs
  have hinf := (C114_overflow (l := l) (s := spin0) (by omega) (by omega) (by omega) (by rw [ea]; exact hr)).1 hs
  constructor
  · intro j k hne w
    have a := a j l k
    rw [mapC_v] at a
    rcases a with ⟨q, -⟩ | ⟨-, z, hz, q⟩
    · have q' : C64.ofC (psi0.v j l k) = 0 := q
      have q1 : F64.fin (psi0.v j l k).re = .fin 0 := congrArg C64.re q'
      have q2 : F64.fin (psi0.v j l k).im = .fin 0 := congrArg C64.im q'
      exact absurd (Complex.ext (F64.fin.inj q1) (F64.fin.inj q2)) hne
    · rw [hinf] at hz
      cases hz
      rw [q]
      exact C64.mul_inf_sign hne spin0 w
  · intro hne
    have b := b l
    rw [mapF_v] at b
    rcases b with ⟨q, -⟩ | ⟨-, z, hz, q⟩
    · have q' : F64.fin (phi0.v l) = .fin 0 := q
      exact absurd (F64.fin.inj q') hne
    · rw [hinf] at hz
      cases hz
      rw [q]
      exact F64.mul_inf_sign hne spin0

theorem frameSum_pos_entry {psi : Arr3 ℂ} {phi : Arr1 ℝ} {l : ℤ} (h : 0 < frameSum J_min J L psi phi l) :
    (∃ j k, J_min ≤ j ∧ j ≤ J ∧ psi.v j l k ≠ 0) ∨ phi.v l ≠ 0 := by
  by_contra hc
  push Not at hc
  obtain ⟨h1, h2⟩ := hc
  unfold frameSum at h
  rw [h2, Finset.sum_eq_zero fun j hj => Finset.sum_eq_zero fun k _ => by
    rw [Finset.mem_Icc] at hj
    rw [h1 j k hj.1 hj.2]; simp] at h
  simp at h

/-- **C135** hence for `lam = 2` every degree at which the product overflows is spoiled: some wavelet is infinite or NaN there, or the
scaling function is infinite. The filters are returned without an exception. -/
theorem C135_spoiled (hm : m.Ok) (hs : Libm.Special m lg) (hT : TopScale jm L 2 J) (hJ : J ≤ 1000)
    (hN : 1 ≤ N) (hN' : N ≤ 990) (h0 : 0 ≤ J_min) (h1 : J_min < J) (spin : ℤ) {spin0 : ℤ} (hs0 : 0 < spin0) (hs1 : spin0 ≤ 2 ^ 48)
    (hL : L + spin0 ≤ 2 ^ 53) :
    ∃ psi phi, filters_directional_spin64 m lg jm L N J_min 2 spin spin0 = .ok (psi, phi) ∧
      ∀ l, |spin| ≤ l → spin0 ≤ l → l < L → 2 ^ (1025 : ℤ) * ((l - spin0).toNat.factorial : ℝ) ≤ ((l + spin0).toNat.factorial : ℝ) →
        (∃ j k, J_min ≤ j ∧ j ≤ J ∧ ∀ w, psi.v j l k ≠ C64.ofC w) ∨ phi.v l = .inf ∨ phi.v l = .ninf := by
  obtain ⟨psi0, -, phi0, hf, -⟩ := C106_looped (m := m) (lg := lg) (N := N) (J_min := J_min) hm hs hT (by omega) hJ hN hN' h0 h1 (max |spin| |spin0|)
  obtain ⟨psi, phi, h, g⟩ := C135_overflow hs0 hs1 hf
  refine ⟨psi, phi, h, fun l a b c hr => ?_⟩
  have hm' : |(max |spin| |spin0| : ℤ)| ≤ l := by
    rw [abs_of_nonneg (le_max_of_le_left (abs_nonneg spin)), abs_of_pos hs0]; exact max_le a b
  obtain ⟨p, -⟩ := C106_admissible hm hs hT (by omega) hJ hN hN' h0 h1 hf (by omega : 0 ≤ l) c hm'
  obtain ⟨g1, g2⟩ := g l (by omega) b hr
  rcases frameSum_pos_entry (lt_of_lt_of_le (by norm_num) p) with ⟨j, k, j1, j2, hne⟩ | hne
  · exact Or.inl ⟨j, k, j1, j2, g1 j k hne⟩
  · exact Or.inr (g2 hne)

/-- **C135** and likewise for `lam = 3`, `4` and `8`. -/
theorem C135_spoiled_other (hm : m.Ok) (hor : OtherRange m lam L J) (hs : Libm.Special m lg) (hT : TopScale jm L lam J)
    (hN : 1 ≤ N) (hN' : N ≤ 990) (h0 : 0 ≤ J_min) (h1 : J_min < J) (spin : ℤ) {spin0 : ℤ} (hs0 : 0 < spin0) (hs1 : spin0 ≤ 2 ^ 48)
    (hL : L + spin0 ≤ 2 ^ 53) :
    ∃ psi phi, filters_directional_spin64 m lg jm L N J_min lam spin spin0 = .ok (psi, phi) ∧
      ∀ l, |spin| ≤ l → spin0 ≤ l → l < L → 2 ^ (1025 : ℤ) * ((l - spin0).toNat.factorial : ℝ) ≤ ((l + spin0).toNat.factorial : ℝ) →
        (∃ j k, J_min ≤ j ∧ j ≤ J ∧ ∀ w, psi.v j l k ≠ C64.ofC w) ∨ phi.v l = .inf ∨ phi.v l = .ninf := by
  obtain ⟨psi0, -, phi0, hf, -⟩ := C130_directional (m := m) (lg := lg) (N := N) (J_min := J_min) hm hor hs hT hN hN' h0 h1 (max |spin| |spin0|)
  obtain ⟨psi, phi, h, g⟩ := C135_overflow hs0 hs1 hf
  refine ⟨psi, phi, h, fun l a b c hr => ?_⟩
  have hm' : |(max |spin| |spin0| : ℤ)| ≤ l := by
    rw [abs_of_nonneg (le_max_of_le_left (abs_nonneg spin)), abs_of_pos hs0]; exact max_le a b
  obtain ⟨p, -⟩ := C130_admissible hm hor hs hT hN hN' h0 h1 hf (by omega : 0 ≤ l) c hm'
  obtain ⟨g1, g2⟩ := g l (by omega) b hr
  rcases frameSum_pos_entry (lt_of_lt_of_le (by norm_num) p) with ⟨j, k, j1, j2, hne⟩ | hne
  · exact Or.inl ⟨j, k, j1, j2, g1 j k hne⟩
  · exact Or.inr (g2 hne)

/-! ### The hypotheses are met -/

/-- `L = 4096`, `lam = 8`, `spin0 = 60`: degree 1000 is spoiled -/
example : ∃ psi phi, filters_directional_spin64 Libm.exact lgExact j_max 4096 3 0 8 0 60 = .ok (psi, phi) ∧
    ((∃ j k, 0 ≤ j ∧ j ≤ 4 ∧ ∀ w, psi.v j 1000 k ≠ C64.ofC w) ∨ phi.v 1000 = .inf ∨ phi.v 1000 = .ninf) := by
  have hT := TopScale.of_j_max (L := 4096) (lam := 8) (by norm_num) (by norm_num) j_max_eight
  have hor : OtherRange Libm.exact 8 4096 4 := Or.inr (Or.inr ⟨rfl, by norm_num, by norm_num⟩)
  obtain ⟨psi, phi, f, g⟩ := C135_spoiled_other (N := 3) Libm.exact_ok hor lgExact_special hT (by norm_num) (by norm_num) le_rfl
    (by norm_num : (0 : ℤ) < 4) 0 (spin0 := 60) (by norm_num) (by decide) (by decide)
  exact ⟨psi, phi, f, g 1000 (by norm_num) (by norm_num) (by norm_num) (by have := overflow_1000; rwa [show |(60 : ℤ)| = 60 from rfl] at this)⟩

end S2wav
