import Verif.Lemmas.LoopedO
import Verif.Props.RoundedBase

/-! # Error analysis of the loops of `base.py` -/

namespace S2wav
open Classical

section
variable {O : Ops C64 F64}

/-- adding up a list of computed quantities -/
theorem list_entry (hO : O.Good) {ι : Type} {P : ι → Prop} {D : ι → C64} {d d' : ι → ℂ} {A T : ι → ℝ} {K : ℕ} (hK : K ≤ 2 ^ 19) (l : List ι) (hl : l.length ≤ 2 ^ 20)
    (h : ∀ i ∈ l, P i → D i = .ofC (d' i) ∧ Nr K (A i) (T i) (d' i) (d i) ∧ T i ≤ 2 ^ (500 : ℤ)) :
    ∃ z, l.foldl (fun g i => if P i then O.add g (D i) else g) 0 = .ofC z ∧
      Nr (K + l.length) (l.map fun i => if P i then A i else 0).sum (l.map fun i => if P i then T i + eta else 0).sum z
        (l.map fun i => if P i then d i else 0).sum ∧
      (l.map fun i => if P i then T i + eta else 0).sum ≤ l.length * 2 ^ (501 : ℤ) := by
  induction l using List.reverseRecOn with
  | nil =>
    refine ⟨0, rfl, ?_, by simp⟩
    exact (Nr.refl (x := 0) (A := 0) (by simp)).mono (Nat.zero_le _) le_rfl
  | append_singleton l j ih =>
    rw [List.length_append, List.length_singleton] at hl
    obtain ⟨z, hz, n1, hb⟩ := ih (by omega) fun i hi => h i (by simp [hi])
    rw [List.foldl_append, hz, List.foldl_cons, List.foldl_nil, List.length_append, List.length_singleton]
    simp only [List.map_append, List.sum_append, List.map_cons, List.map_nil, List.sum_cons, List.sum_nil, add_zero]
    have h501 : (0 : ℝ) ≤ 2 ^ (501 : ℤ) := by positivity
    by_cases hP : P j
    · obtain ⟨g1, g2, g3⟩ := h j (by simp) hP
      have hnb : (l.length : ℝ) ≤ 2 ^ (20 : ℤ) := by
        have : (l.length : ℝ) ≤ ((2 ^ 20 : ℕ) : ℝ) := by exact_mod_cast (by omega : l.length ≤ 2 ^ 20)
        refine this.trans (le_of_eq ?_); norm_num
      have hb' : (l.map fun i => if P i then T i + eta else 0).sum ≤ 2 ^ (521 : ℤ) :=
        hb.trans (p2_mul _ hnb le_rfl h501 (by norm_num))
      obtain ⟨y, hy, hye⟩ := hO.add z (d' j) (n1.norm_le.trans (p2_up _ (by omega) hb' n1.nonneg.2 (by norm_num)))
        (g2.norm_le.trans (p2_up _ (by omega) g3 g2.nonneg.2 (by norm_num)))
      refine ⟨y, ?_, ?_, ?_⟩
      · rw [if_pos hP, g1, hy]
      · rw [if_pos hP, if_pos hP, if_pos hP, ← add_assoc, ← add_assoc]
        exact n1.add (g2.mono (show K ≤ K + l.length by omega) le_rfl) hye
      · rw [if_pos hP]
        have : T j + eta ≤ 2 ^ (501 : ℤ) := p2_add _ g3 eta_le (by norm_num) (by norm_num)
        push_cast
        rw [add_mul, one_mul]
        linarith
    · refine ⟨z, ?_, ?_, ?_⟩
      · rw [if_neg hP]
      · rw [if_neg hP, if_neg hP, if_neg hP, add_zero, add_zero, add_zero]
        exact n1.mono (by omega) le_rfl
      · rw [if_neg hP, add_zero]
        refine hb.trans (mul_le_mul_of_nonneg_right ?_ h501)
        push_cast; linarith

/-- the pairs (scale, orientation) in the order of the loops -/
def pairs (r : ℤ → List ℤ) (l : List ℤ) : List (ℤ × ℤ) := l.flatMap fun j => (r j).map (Prod.mk j)

theorem foldl_pairs {γ : Type} (r : ℤ → List ℤ) (f : ℤ → ℤ → γ → γ) (l : List ℤ) (x : γ) :
    l.foldl (fun g j => (r j).foldl (fun x i => f j i x) g) x = (pairs r l).foldl (fun x p => f p.1 p.2 x) x := by
  induction l generalizing x with
  | nil => rfl
  | cons j l ih =>
    rw [List.foldl_cons, ih, pairs, pairs, List.flatMap_cons, List.foldl_append, List.foldl_map]

theorem sum_pairs {M : Type} [AddCommMonoid M] (r : ℤ → List ℤ) (f : ℤ × ℤ → M) (l : List ℤ) :
    ((pairs r l).map f).sum = (l.map fun j => ((r j).map fun i => f (j, i)).sum).sum := by
  induction l with
  | nil => rfl
  | cons j l ih =>
    rw [pairs, List.flatMap_cons, List.map_append, List.sum_append, List.map_map, List.map_cons, List.sum_cons, ← ih]
    rfl

theorem length_pairs_le (r : ℤ → List ℤ) (n : ℕ) (l : List ℤ) (h : ∀ j ∈ l, (r j).length ≤ n) : (pairs r l).length ≤ l.length * n := by
  induction l with
  | nil => simp [pairs]
  | cons j l ih =>
    rw [pairs, List.flatMap_cons, List.length_append, List.length_map, List.length_cons, add_mul, one_mul, add_comm]
    exact add_le_add (ih fun i hi => h i (by simp [hi])) (h j (by simp))

theorem mem_pairs {r : ℤ → List ℤ} {l : List ℤ} {p : ℤ × ℤ} : p ∈ pairs r l ↔ p.1 ∈ l ∧ p.2 ∈ r p.1 := by
  obtain ⟨j, i⟩ := p
  simp only [pairs, List.mem_flatMap, List.mem_map, Prod.mk.injEq]
  constructor
  · rintro ⟨j', h1, i', h2, rfl, rfl⟩; exact ⟨h1, h2⟩
  · rintro ⟨h1, h2⟩; exact ⟨j, h1, i, h2, rfl, rfl⟩

end

section
variable {L Lj Nj L0j spin j : ℤ} {psi : Arr3 ℂ} {phi : Arr1 ℝ}

/-- the terms skipped by the loops of the looped synthesis are zero -/
theorem synW_looped (hZ : FltZero L spin psi phi) {t : Arr3 ℂ} (ht : Tri3 Lj Nj t) (l m : ℤ) :
    (∑ i ∈ Finset.Ico 0 Nj, if InL L Lj L0j spin (-Nj + 1 + 2 * i) l m then t.v (2 * i) l (m - (L - Lj)) * psi.v j l (L - Nj + 2 * i) else 0) =
      synW L Lj Nj L0j psi j t l m := by
  unfold synW
  have htz := ht.2.2.2
  by_cases h : L0j ≤ l ∧ l < Lj ∧ L - Lj ≤ m ∧ m < L - 1 + Lj
  · rw [if_pos h]
    refine Finset.sum_congr rfl fun i hi => ?_
    rw [Finset.mem_Ico] at hi
    unfold InL
    by_cases hm : l < |m - (L - 1)|
    · rw [if_neg (by omega)]
      have := htz (2 * i) l (m - (L - 1)) hm
      rw [show m - (L - Lj) = Lj - 1 + (m - (L - 1)) by ring, this, mul_zero]
    · by_cases hn : l < |-Nj + 1 + 2 * i| ∨ l < |spin|
      · rw [if_neg (by omega)]
        have := hZ.psi j l (-Nj + 1 + 2 * i) hn
        rw [show L - Nj + 2 * i = L - 1 + (-Nj + 1 + 2 * i) by ring, this, zero_mul]
      · rw [if_pos (by omega), mul_comm]
  · rw [if_neg h]
    refine Finset.sum_eq_zero fun i hi => ?_
    unfold InL
    rw [if_neg]
    rintro ⟨a1, a2, a3⟩
    have := abs_le.1 a3
    omega

theorem synS_looped {Ls : ℤ} (hZ : FltZero L spin psi phi) {s : Arr2 ℂ} (hs : Tri2 Ls s) (l m : ℤ) :
    (if |spin| ≤ l ∧ l < Ls ∧ |m - (L - 1)| ≤ l then s.v l (m - (L - Ls)) * ((phi.v l * k4 l : ℝ) : ℂ) else 0) = synS L Ls phi s l m := by
  unfold synS
  by_cases h : |spin| ≤ l ∧ l < Ls ∧ |m - (L - 1)| ≤ l
  · have := abs_le.1 h.2.2
    rw [if_pos h, if_pos ⟨h.2.1, by omega, by omega⟩]; rfl
  · rw [if_neg h]
    split_ifs with h'
    · by_cases hl : l < |spin|
      · rw [hZ.phi l hl]; simp
      · have hm : l < |m - (L - 1)| := by
          by_contra hm
          exact h ⟨by omega, h'.1, by omega⟩
        have := hs.2.2 l (m - (L - 1)) hm
        rw [show m - (L - Ls) = Ls - 1 + (m - (L - 1)) by ring, this, zero_mul]
    · rfl

theorem FltZero.abs (hZ : FltZero L spin psi phi) : FltZero L spin (abs3 psi) (abs1 phi) :=
  ⟨fun j l n h => by rw [abs3_v, hZ.psi j l n h, norm_zero, Complex.ofReal_zero], fun l h => by rw [abs1_v, hZ.phi l h, abs_zero]⟩

end

/-- the same arithmetic, with `0 + y = y` exactly and the factors of real products exchanged -/
noncomputable def Ops.loop {α β : Type} [Zero α] (O : Ops α β) : Ops α β := { O.set with rmul := fun x y => O.rmul y x }

theorem loop_good {O : Ops C64 F64} (h : O.Good) : O.loop.Good where
  conj := h.conj
  ofReal := h.ofReal
  mul := h.mul
  add := (set_good h).add
  dot := h.dot
  rmul x y hx hy := by
    obtain ⟨z, hz, hb⟩ := h.rmul y x hy hx
    refine ⟨z, hz, ?_⟩
    rwa [mul_comm x, mul_comm |x|]
  c8 := h.c8
  c4 := h.c4

/-- what the loops over the wavelets of the looped synthesis leave in one cell -/
noncomputable def synTot {α β : Type} [Zero α] (O : Ops α β) (mr : Bool) (L N J_min J : ℤ) (lam : ℝ) (spin : ℤ) (psi : Arr3 α) (t : ℤ → Arr3 α) (x : ℤ × ℤ) : α :=
  (pyRange J_min (J + 1)).foldl (fun g j => synCell O L (LN_j L j N lam mr).1 (LN_j L j N lam mr).2.1 (LN_j L j N lam mr).2.2 spin psi j (t j) x g) 0

section
variable {O : Ops C64 F64} {mr : Bool} {L N J J_min spin : ℤ} {lam : ℝ} {psi : Arr3 ℂ} {phi : Arr1 ℝ}

theorem tot_entry (hO : O.Good) (hL : 1 ≤ L) (hlam : 1 < lam) (hN : 1 ≤ N) (hN' : N ≤ 2 ^ 10) (h0 : 0 ≤ J_min) (h1 : J_min ≤ J + 1)
    (hJ : J < 2 ^ 10) (hZ : FltZero L spin psi phi) {l : ℤ} (hl0 : 0 ≤ l) (hl1 : l < L)
    (hpsi : ∀ j, J_min ≤ j → j ≤ J → ∀ l n, 0 ≤ l → l < L → ‖psi.v j l n‖ ≤ 2 ^ (30 : ℤ)) {t : ℤ → Arr3 ℂ}
    (hw : ∀ j, J_min ≤ j → j ≤ J → Tri3 (LN_j L j N lam mr).1 (LN_j L j N lam mr).2.1 (t j))
    (hwa : ∀ j, J_min ≤ j → j ≤ J → Tri3 (LN_j L j N lam mr).1 (LN_j L j N lam mr).2.1 (abs3 (t j)))
    (ht : ∀ j, J_min ≤ j → j ≤ J → ∀ k l m, ‖(t j).v k l m‖ ≤ 2 ^ (380 : ℤ)) (m : ℤ) :
    ∃ (n : ℕ) (A T : ℝ) (z : ℂ), synTot O mr L N J_min J lam spin (psi.map C64.ofC) (fun j => (t j).map C64.ofC) (l, m) = .ofC z ∧
      (n : ℤ) ≤ N * (J + 1) ∧ n ≤ 2 ^ 20 ∧ T ≤ 2 ^ (521 : ℤ) ∧ T ≤ A + 2 * n * eta ∧
      Nr (1 + n) A T z (∑ j ∈ Finset.Ico J_min (J + 1), synW L (LN_j L j N lam mr).1 (LN_j L j N lam mr).2.1 (LN_j L j N lam mr).2.2 psi j (t j) l m) ∧
      (A : ℂ) = ∑ j ∈ Finset.Ico J_min (J + 1), synW L (LN_j L j N lam mr).1 (LN_j L j N lam mr).2.1 (LN_j L j N lam mr).2.2 (abs3 psi) j (abs3 (t j)) l m := by
  have he := eta_pos
  set r : ℤ → List ℤ := fun j => pyRange 0 (LN_j L j N lam mr).2.1 with hr
  set q := pairs r (pyRange J_min (J + 1)) with hq
  have hmem : ∀ p ∈ q, J_min ≤ p.1 ∧ p.1 ≤ J := fun p hp => by
    have := (mem_pairs.1 hp).1
    rw [mem_pyRange] at this
    omega
  set P : ℤ × ℤ → Prop := fun p => InL L (LN_j L p.1 N lam mr).1 (LN_j L p.1 N lam mr).2.2 spin (-(LN_j L p.1 N lam mr).2.1 + 1 + 2 * p.2) l m with hP
  set a : ℤ × ℤ → ℂ := fun p => (t p.1).v (2 * p.2) l (m - (L - (LN_j L p.1 N lam mr).1)) with ha
  set b : ℤ × ℤ → ℂ := fun p => psi.v p.1 l (L - (LN_j L p.1 N lam mr).2.1 + 2 * p.2) with hb
  have hlen : q.length ≤ (J + 1 - J_min).toNat * N.toNat := by
    have := length_pairs_le r N.toNat (pyRange J_min (J + 1)) fun j _ => by
      have := LN_j_Nj_bounds hL hlam hN j mr
      rw [hr]
      simp only
      rw [length_pyRange]
      omega
    rwa [length_pyRange] at this
  have hlenZ : (q.length : ℤ) ≤ N * (J + 1) := by
    have a1 : ((J + 1 - J_min).toNat : ℤ) ≤ J + 1 := by omega
    have a2 : (N.toNat : ℤ) = N := by omega
    calc (q.length : ℤ) ≤ ((J + 1 - J_min).toNat * N.toNat : ℕ) := by exact_mod_cast hlen
      _ = ((J + 1 - J_min).toNat : ℤ) * N := by push_cast [a2]; rfl
      _ ≤ (J + 1) * N := by gcongr
      _ = N * (J + 1) := by ring
  have hlen20 : q.length ≤ 2 ^ 20 := by
    have : N * (J + 1) ≤ 2 ^ 10 * 2 ^ 10 := mul_le_mul hN' (by omega) (by omega) (by norm_num)
    have : (q.length : ℤ) ≤ 2 ^ 20 := by linarith
    exact_mod_cast this
  have hD : ∀ p : ℤ × ℤ, ∃ z : ℂ, J_min ≤ p.1 ∧ p.1 ≤ J → O.mul (.ofC (a p)) (.ofC (b p)) = .ofC z ∧
      Nr 1 (‖a p‖ * ‖b p‖) (‖a p‖ * ‖b p‖ + eta) z (a p * b p) ∧ ‖a p‖ * ‖b p‖ + eta ≤ 2 ^ (500 : ℤ) := by
    intro p
    by_cases hp : J_min ≤ p.1 ∧ p.1 ≤ J
    · have n1 : ‖a p‖ ≤ 2 ^ (380 : ℤ) := ht _ hp.1 hp.2 _ _ _
      have n2 : ‖b p‖ ≤ 2 ^ (30 : ℤ) := hpsi _ hp.1 hp.2 _ _ hl0 hl1
      obtain ⟨z, hz, hze⟩ := hO.mul (a p) (b p) (n1.trans (p2_mono (by norm_num))) (n2.trans (p2_mono (by norm_num)))
      exact ⟨z, fun _ => ⟨hz, (Nr.refl le_rfl).mul (Nr.refl le_rfl) hze,
        p2_add (a := 410) (b := 0) _ (p2_mul _ n1 n2 (norm_nonneg _) (by norm_num)) eta_le (by norm_num) (by norm_num)⟩⟩
    · exact ⟨0, fun h => absurd h hp⟩
  choose d' hd' using hD
  obtain ⟨z, hz, hn, hT⟩ := list_entry hO (P := P) (D := fun p => O.mul (.ofC (a p)) (.ofC (b p))) (d := fun p => a p * b p) (d' := d')
    (A := fun p => ‖a p‖ * ‖b p‖) (T := fun p => ‖a p‖ * ‖b p‖ + eta) (K := 1) (by norm_num) q hlen20
    fun p hp _ => hd' p (hmem p hp)
  have hsum : ∀ {M : Type} [AddCommMonoid M] (f : ℤ × ℤ → M), (q.map f).sum =
      ∑ j ∈ Finset.Ico J_min (J + 1), ∑ i ∈ Finset.Ico 0 (LN_j L j N lam mr).2.1, f (j, i) := by
    intro M _ f
    rw [hq, sum_pairs, sum_pyRange]
    exact Finset.sum_congr rfl fun j _ => sum_pyRange _ _ _
  refine ⟨q.length, (q.map fun i => if P i then ‖a i‖ * ‖b i‖ else 0).sum, (q.map fun i => if P i then ‖a i‖ * ‖b i‖ + eta + eta else 0).sum, z, ?_,
    hlenZ, hlen20, ?_, ?_, ?_, ?_⟩
  rotate_left 3
  · have e : (q.map fun i => if P i then a i * b i else 0).sum =
        ∑ j ∈ Finset.Ico J_min (J + 1), synW L (LN_j L j N lam mr).1 (LN_j L j N lam mr).2.1 (LN_j L j N lam mr).2.2 psi j (t j) l m := by
      rw [hsum]
      refine Finset.sum_congr rfl fun j hj => ?_
      rw [Finset.mem_Ico] at hj
      have := hw j hj.1 (by omega)
      rw [← synW_looped hZ this l m]
    rw [← e]
    exact hn
  · rw [hsum]
    push_cast
    refine Finset.sum_congr rfl fun j hj => ?_
    rw [Finset.mem_Ico] at hj
    have := hwa j hj.1 (by omega)
    rw [← synW_looped hZ.abs this l m]
    refine Finset.sum_congr rfl fun i _ => ?_
    rw [abs3_v, abs3_v]
    simp only [hP, ha, hb]
    split_ifs
    · push_cast; ring
    · rfl
  · rw [← hz]
    unfold synTot synCell
    rw [foldl_pairs r (fun j i x => if InL L (LN_j L j N lam mr).1 (LN_j L j N lam mr).2.2 spin (-(LN_j L j N lam mr).2.1 + 1 + 2 * i) l m then
      O.add x (O.mul (((t j).map C64.ofC).v (2 * i) l (m - (L - (LN_j L j N lam mr).1))) ((psi.map C64.ofC).v j l (L - (LN_j L j N lam mr).2.1 + 2 * i))) else x)]
    simp only [map_ofC3, hP, ha, hb, hq]
  · have : (q.length : ℝ) ≤ 2 ^ (20 : ℤ) := by
      have : (q.length : ℝ) ≤ ((2 ^ 20 : ℕ) : ℝ) := by exact_mod_cast hlen20
      refine this.trans (le_of_eq ?_); norm_num
    exact hT.trans (p2_mul _ this le_rfl (by positivity) (by norm_num))
  · have : ∀ q : List (ℤ × ℤ), (q.map fun i => if P i then ‖a i‖ * ‖b i‖ + eta + eta else 0).sum ≤
        (q.map fun i => if P i then ‖a i‖ * ‖b i‖ else 0).sum + 2 * q.length * eta := by
      intro q
      induction q with
      | nil => simp
      | cons p q ih =>
        simp only [List.map_cons, List.sum_cons, List.length_cons]
        push_cast
        split_ifs <;> linarith
    exact this q

/-- one coefficient computed by the looped synthesis -/
theorem cell_entry (hO : O.Good) (hL : 1 ≤ L) (hL' : L ≤ 2 ^ 52) (hlam : 1 < lam) (hN : 1 ≤ N) (hN' : N ≤ 2 ^ 10) (h0 : 0 ≤ J_min) (h1 : J_min ≤ J + 1)
    (hJ : J < 2 ^ 10) (hZ : FltZero L spin psi phi) {l : ℤ} (hl0 : 0 ≤ l) (hl1 : l < L)
    (hpsi : ∀ j, J_min ≤ j → j ≤ J → ∀ l n, 0 ≤ l → l < L → ‖psi.v j l n‖ ≤ 2 ^ (30 : ℤ)) (hphi : ∀ l, 0 ≤ l → l < L → |phi.v l| ≤ 2 ^ (30 : ℤ)) {t : ℤ → Arr3 ℂ}
    (hw : ∀ j, J_min ≤ j → j ≤ J → Tri3 (LN_j L j N lam mr).1 (LN_j L j N lam mr).2.1 (t j))
    (hwa : ∀ j, J_min ≤ j → j ≤ J → Tri3 (LN_j L j N lam mr).1 (LN_j L j N lam mr).2.1 (abs3 (t j)))
    (ht : ∀ j, J_min ≤ j → j ≤ J → ∀ k l m, ‖(t j).v k l m‖ ≤ 2 ^ (380 : ℤ)) {s : Arr2 ℂ}
    (hs : Tri2 (scal_bandlimit L J_min lam mr) s) (hsa : Tri2 (scal_bandlimit L J_min lam mr) (abs2 s)) (hsb : ∀ l m, ‖s.v l m‖ ≤ 2 ^ (380 : ℤ))
    {m : ℤ} (hm0 : 0 ≤ m) (hm1 : m < 2 * L - 1) :
    ∃ y z : ℂ, synTot O mr L N J_min J lam spin (psi.map C64.ofC) (fun j => (t j).map C64.ofC) (l, m) = .ofC y ∧ ‖y‖ ≤ 2 ^ (530 : ℤ) ∧
      (if |spin| ≤ l ∧ l < scal_bandlimit L J_min lam mr ∧ |m - (L - 1)| ≤ l then
        O.add (.ofC y) (synU O L (scal_bandlimit L J_min lam mr) (phi.map F64.fin) (s.map C64.ofC) (l, m)) else .ofC y) = .ofC z ∧ ‖z‖ ≤ 2 ^ (530 : ℤ) ∧
      ‖z - (synA L N J_min J lam mr psi phi t s).v l m‖ ≤
        (N * (J + 1) + 4) / 2 ^ 49 * ‖(synA L N J_min J lam mr (abs3 psi) (abs1 phi) (fun j => abs3 (t j)) (abs2 s)).v l m‖ + 2 ^ (-610 : ℤ) := by
  have he := eta_pos
  obtain ⟨n, A, T, y, hy, hnZ, hn, hT, hTA, n1, hA⟩ := tot_entry hO hL hlam hN hN' h0 h1 hJ hZ hl0 hl1 hpsi hw hwa ht m
  have hyb : ‖y‖ ≤ 2 ^ (530 : ℤ) := n1.norm_le.trans (p2_up _ (by omega) hT n1.nonneg.2 (by norm_num))
  set Ls := scal_bandlimit L J_min lam mr with hLs
  set S := ‖s.v l (m - (L - Ls))‖ with hS
  have hS0 : 0 ≤ S := norm_nonneg _
  have kp4 := (k4_bounds hl0).1
  set Q : Prop := |spin| ≤ l ∧ l < Ls ∧ |m - (L - 1)| ≤ l with hQ
  have hAa : ‖(synA L N J_min J lam mr (abs3 psi) (abs1 phi) (fun j => abs3 (t j)) (abs2 s)).v l m‖ = A + if Q then S * (|phi.v l| * k4 l) else 0 := by
    have hpos : 0 ≤ A + if Q then S * (|phi.v l| * k4 l) else 0 := by
      refine add_nonneg n1.nonneg.1 ?_
      split_ifs <;> positivity
    unfold synA
    rw [Arr2.of_v _ _ _ _ _ ⟨hl0, hl1, hm0, hm1⟩, ← hA, ← synS_looped hZ.abs hsa l m, abs2_v, abs1_v]
    have : ((A : ℂ) + if |spin| ≤ l ∧ l < scal_bandlimit L J_min lam mr ∧ |m - (L - 1)| ≤ l then ((‖s.v l (m - (L - scal_bandlimit L J_min lam mr))‖ : ℝ) : ℂ) * ((|phi.v l| * k4 l : ℝ) : ℂ) else 0) =
        ((A + if Q then S * (|phi.v l| * k4 l) else 0 : ℝ) : ℂ) := by
      rw [Complex.ofReal_add]
      congr 1
      by_cases hin : Q
      · rw [if_pos hin, if_pos hin, Complex.ofReal_mul S]
      · rw [if_neg hin, if_neg hin, Complex.ofReal_zero]
    rw [this, Complex.norm_real, Real.norm_of_nonneg hpos]
  have hX : (synA L N J_min J lam mr psi phi t s).v l m =
      ∑ j ∈ Finset.Ico J_min (J + 1), synW L (LN_j L j N lam mr).1 (LN_j L j N lam mr).2.1 (LN_j L j N lam mr).2.2 psi j (t j) l m +
        if Q then s.v l (m - (L - Ls)) * ((phi.v l * k4 l : ℝ) : ℂ) else 0 := by
    unfold synA
    rw [Arr2.of_v _ _ _ _ _ ⟨hl0, hl1, hm0, hm1⟩, ← synS_looped hZ hs l m]
  obtain ⟨z, hz, Tt, n3, hTt, hb3⟩ : ∃ z : ℂ, (if Q then O.add (.ofC y) (synU O L Ls (phi.map F64.fin) (s.map C64.ofC) (l, m)) else .ofC y) = .ofC z ∧
      ∃ Tt, Nr (n + 4) (A + if Q then S * (|phi.v l| * k4 l) else 0) Tt z ((synA L N J_min J lam mr psi phi t s).v l m) ∧
        Tt ≤ (A + if Q then S * (|phi.v l| * k4 l) else 0) + ((1 : ℕ) * ((2 * n + 1) * eta) + (S + 2) * eta) ∧ Tt ≤ 2 ^ (525 : ℤ) := by
    rw [hX]
    by_cases hin : Q
    · rw [if_pos hin, if_pos hin, if_pos hin]
      obtain ⟨x, hx, n2, hb2⟩ := scal_entry (loop_good hO) hl0 (by omega : l < 2 ^ 52) (hphi l hl0 hl1) (Nat.zero_le _)
        (Nr.refl (le_refl ‖s.v l (m - (L - Ls))‖)) ((hsb _ _).trans (p2_mono (by norm_num)))
      have hx' : synU O L Ls (phi.map F64.fin) (s.map C64.ofC) (l, m) = .ofC x := by
        rw [← hx]
        unfold synU
        rw [map_fin1, map_ofC2]
        rfl
      obtain ⟨z, hz, hze⟩ := hO.add y x (hyb.trans (p2_mono (by norm_num)))
        (n2.norm_le.trans (p2_up _ (by norm_num) hb2 n2.nonneg.2 (by norm_num)))
      have n3 := (n1.mono (show 1 + n ≤ n + 3 by omega) le_rfl).add (n2.mono (show 0 + 3 ≤ n + 3 by omega) le_rfl) hze
      refine ⟨z, by rw [hx', hz], _, n3, ?_, ?_⟩
      · push_cast
        rw [mul_add]
        linarith
      · exact p2_add (a := 523) (b := 0) _ (p2_add (a := 521) (b := 430) _ hT hb2 (by norm_num) (by norm_num)) eta_le (by norm_num) (by norm_num)
    · rw [if_neg hin, if_neg hin, if_neg hin, add_zero, add_zero]
      refine ⟨y, rfl, T, n1.mono (by omega) le_rfl, ?_, hT.trans (p2_mono (by norm_num))⟩
      push_cast
      have : 0 ≤ S * eta := by positivity
      linarith
  refine ⟨y, z, hy, hyb, hz, n3.norm_le.trans (p2_up _ (by omega) hb3 n3.nonneg.2 (by norm_num)), ?_⟩
  rw [hAa]
  refine n3.err.trans ?_
  have hK : n + 4 ≤ 2 ^ 21 := by omega
  have hKR : ((n + 4 : ℕ) : ℝ) ≤ N * (J + 1) + 4 := by
    have : ((n + 4 : ℕ) : ℤ) ≤ N * (J + 1) + 4 := by push_cast; linarith
    exact_mod_cast this
  have hup := up_le hK
  have hup2 := up_le_two hK
  have hA0 := n3.nonneg.1
  have hAT := n3.2.1
  have ht6 := tiny600 (n := 1) (N := n) (S := S) (by norm_num) hn (hsb _ _) hS0
  have j3 : (2 * ((n + 4 : ℕ) : ℝ) * uu) ≤ (N * (J + 1) + 4) / 2 ^ 49 := by
    rw [uu_eq]
    generalize ((n + 4 : ℕ) : ℝ) = K at *
    rw [show 2 * K * (1 / 2 ^ 50) = K / 2 ^ 49 by ring]
    gcongr
  generalize (A + if Q then S * (|phi.v l| * k4 l) else 0) = Aa at *
  set U := (1 + uu) ^ (n + 4)
  have j1 : U * Tt - Aa ≤ (U - 1) * Aa + 2 * (Tt - Aa) := by nlinarith
  have j2 : (U - 1) * Aa ≤ (N * (J + 1) + 4) / 2 ^ 49 * Aa := mul_le_mul_of_nonneg_right (by linarith) hA0
  clear hT hb3 hyb hpsi hphi ht hsb
  generalize (2 : ℝ) ^ (-610 : ℤ) = q at *
  linarith

end

end S2wav
