import Verif.Model.Base
import Verif.Lemmas.Loops
import Verif.Lemmas.Lists
import Verif.Lemmas.Directional

/-! # The harmonic core of the transforms: closed forms of the array arithmetic of one scale -/

namespace S2wav
open Classical

/-- closed form of the Wigner coefficients of scale `j` -/
noncomputable def anaW (L Lj Nj L0j : ℤ) (psi : Arr3 ℂ) (j : ℤ) (flm : Arr2 ℂ) : Arr3 ℂ :=
  Arr3.of (2 * Nj - 1) Lj (2 * Lj - 1) fun k l m =>
    if k % 2 = 0 ∧ L0j ≤ l then
      flm.v l (L - Lj + m) * ((starRingEnd ℂ) (psi.v j l (L - Nj + k)) * ((8 * Real.pi ^ 2 / (2 * l + 1) : ℝ) : ℂ))
    else 0

/-- closed form of the scaling coefficients -/
noncomputable def anaS (L Ls : ℤ) (phi : Arr1 ℝ) (flm : Arr2 ℂ) : Arr2 ℂ :=
  Arr2.of Ls (2 * Ls - 1) fun l m =>
    flm.v l (L - Ls + m) * ((phi.v l * Real.sqrt (4 * Real.pi / (2 * l + 1)) : ℝ) : ℂ)

/-- contribution of scale `j` to the synthesised coefficients -/
noncomputable def synW (L Lj Nj L0j : ℤ) (psi : Arr3 ℂ) (j : ℤ) (t : Arr3 ℂ) (l m : ℤ) : ℂ :=
  if L0j ≤ l ∧ l < Lj ∧ L - Lj ≤ m ∧ m < L - 1 + Lj then
    ∑ k ∈ Finset.Ico 0 Nj, psi.v j l (L - Nj + 2 * k) * t.v (2 * k) l (m - (L - Lj))
  else 0

/-- contribution of the scaling function to the synthesised coefficients -/
noncomputable def synS (L Ls : ℤ) (phi : Arr1 ℝ) (s : Arr2 ℂ) (l m : ℤ) : ℂ :=
  if l < Ls ∧ L - Ls ≤ m ∧ m < L - 1 + Ls then
    s.v l (m - (L - Ls)) * ((phi.v l * Real.sqrt (4 * Real.pi / (2 * l + 1)) : ℝ) : ℂ)
  else 0

theorem Arr2.addAt_ok (a : Arr2 ℂ) (s t : Sl) (w : Arr2 ℂ) (hr : w.r = s.len) (hc : w.c = t.len) :
    a.addAt s t w = .ok (Arr2.of a.r a.c fun i j =>
      if s.mem i ∧ t.mem j then a.v i j + w.v (bix w.r (s.pos i)) (bix w.c (t.pos j)) else a.v i j) :=
  if_pos ⟨Or.inl hr, Or.inl hc⟩

theorem mkSl_step2 {n lo hi k : ℤ} (h0 : 0 ≤ lo) (h1 : hi ≤ n) (h2 : hi = lo + 2 * k - 1) (hk : 1 ≤ k) :
    mkSl n (some lo) (some hi) 2 = ⟨lo, k, 2⟩ := by
  simp only [mkSl, slBound]
  rw [if_neg (by omega), if_neg (by omega)]
  congr 1 <;> omega

theorem mkSl_all2 {n k : ℤ} (h : n = 2 * k - 1) (hk : 1 ≤ k) : mkSl n none none 2 = ⟨0, k, 2⟩ := by
  simp only [mkSl]
  congr 1
  omega

theorem Sl.mem_two {n i : ℤ} : (Sl.mk 0 n 2).mem i ↔ i % 2 = 0 ∧ 0 ≤ i ∧ i < 2 * n := by
  simp only [Sl.mem]
  omega

theorem Sl.pos_two {n i : ℤ} : (Sl.mk 0 n 2).pos i = i / 2 := by simp [Sl.pos]

section
variable {L Lj Nj L0j D j : ℤ}

/-- `einsum("jln,l->jln", conj(psi), 8 pi^2 / (2 l + 1))` -/
theorem wav_lm_ok {psi : Arr3 ℂ} (hL : 0 ≤ L) (hr : psi.r = L) :
    einsum_jln_l (psi.map (starRingEnd ℂ)) (norm8 L) = .ok (Arr3.of psi.d L psi.c fun j l n =>
      (starRingEnd ℂ) (psi.v j l n) * ((8 * Real.pi ^ 2 / (2 * l + 1) : ℝ) : ℂ)) := by
  have hn : (norm8 L).n = L := by simp [norm8, arange]; omega
  unfold einsum_jln_l
  have h1 : (psi.map (starRingEnd ℂ)).r = L := hr
  rw [hn, h1, bdim_self, Py.bind_ok]
  congr 1
  refine Arr3.of_congr fun k i n a b c d e f => ?_
  rw [bix_self c d]
  have e1 : (psi.map (starRingEnd ℂ)).v k i n = (starRingEnd ℂ) (psi.v k i n) :=
    Arr3.of_v _ _ _ _ _ _ _ ⟨a, b, c, by rw [hr]; exact d, e, f⟩
  rw [e1]
  congr 1
  unfold norm8 arange
  rw [Arr1.of_v _ _ _ ⟨c, by omega⟩]
  simp

/-- the slice of the weighted filters used for scale `j` (NumPy and torch) -/
theorem sliceAt_ok (a : Arr3 ℂ) (h0 : 0 ≤ j) (h1 : j < a.d) (s t : Sl) :
    a.sliceAt j s t = .ok (Arr2.of s.len t.len fun i k => a.v j (s.at i) (t.at k)) := by
  unfold Arr3.sliceAt
  rw [pyIdx_ok h0 h1]; rfl

/-- the slice of the weighted filters used for scale `j` (JAX) -/
theorem sliceAtJax_ok (a : Arr3 ℂ) (h0 : 0 ≤ j) (h1 : j < a.d) (s t : Sl) :
    a.sliceAtJax j s t = Arr2.of s.len t.len fun i k => a.v j (s.at i) (t.at k) := by
  unfold Arr3.sliceAtJax
  rw [jaxIdx_ok h0 h1]

/-- the product of one analysis step -/
theorem ana_prod {flm : Arr2 ℂ} {psi : Arr3 ℂ} (hfr : flm.r = L) (hfc : flm.c = 2 * L - 1)
    (hd : j < psi.d) (hc : psi.c = 2 * L - 1) (hj : 0 ≤ j) (hN1 : 1 ≤ Nj) (hN : Nj ≤ L) (hLj1 : 1 ≤ Lj) (hLj : Lj ≤ L)
    (hL0 : 0 ≤ L0j) :
    einsum_lm_ln
      (flm.slice (mkSl flm.r (some L0j) (some Lj)) (mkSl flm.c (some (L - Lj)) (some (L - 1 + Lj))))
      (Arr2.of (mkSl L (some L0j) (some Lj)).len (mkSl psi.c (some (L - Nj)) (some (L - 1 + Nj)) 2).len
        fun i k => (Arr3.of psi.d L psi.c fun j l n =>
          (starRingEnd ℂ) (psi.v j l n) * ((8 * Real.pi ^ 2 / (2 * l + 1) : ℝ) : ℂ)).v j
          ((mkSl L (some L0j) (some Lj)).at i) ((mkSl psi.c (some (L - Nj)) (some (L - 1 + Nj)) 2).at k)) =
    .ok (Arr3.of Nj (max 0 (Lj - min L0j Lj)) (2 * Lj - 1) fun k l m =>
      flm.v (L0j + l) (L - Lj + m) * ((starRingEnd ℂ) (psi.v j (L0j + l) (L - Nj + 2 * k)) *
        ((8 * Real.pi ^ 2 / (2 * (L0j + l : ℤ) + 1) : ℝ) : ℂ))) := by
  have hm : mkSl L (some L0j) (some Lj) = ⟨min L0j L, max 0 (Lj - min L0j L), 1⟩ := mkSl_mid hL0 hLj (by omega)
  have hlen : max 0 (Lj - min L0j L) = max 0 (Lj - min L0j Lj) := by omega
  have hcs : mkSl flm.c (some (L - Lj)) (some (L - 1 + Lj)) = ⟨L - Lj, 2 * Lj - 1, 1⟩ := by
    rw [mkSl_mid (by omega) (by omega) (by omega)]; congr 1 <;> omega
  have hps : mkSl psi.c (some (L - Nj)) (some (L - 1 + Nj)) 2 = ⟨L - Nj, Nj, 2⟩ :=
    mkSl_step2 (by omega) (by omega) (by omega) hN1
  rw [hfr, hm, hcs, hps, hlen]
  unfold einsum_lm_ln Arr2.slice
  simp only [Arr2.of_r, Arr2.of_c, bdim_self, Py.bind_ok]
  congr 1
  refine Arr3.of_congr fun k l m a b c d e f => ?_
  have hb : bix (max 0 (Lj - min L0j Lj)) l = l := bix_self c d
  have hL0L : min L0j L = L0j := by omega
  rw [hb, Arr2.of_v _ _ _ _ _ ⟨c, d, e, f⟩, Arr2.of_v _ _ _ _ _ ⟨c, d, a, b⟩]
  simp only [Sl.at, mul_one]
  rw [hL0L, Arr3.of_v _ _ _ _ _ _ _ ⟨hj, hd, by omega, by omega, by omega, by omega⟩, mul_comm k 2]

/-- the filter slice of scale `j` -/
noncomputable def wSlice (L Lj Nj L0j : ℤ) (a : Arr3 ℂ) (j : ℤ) : Arr2 ℂ :=
  Arr2.of (mkSl L (some L0j) (some Lj)).len (mkSl (2 * L - 1) (some (L - Nj)) (some (L - 1 + Nj)) 2).len
    fun i k => a.v j ((mkSl L (some L0j) (some Lj)).at i) ((mkSl (2 * L - 1) (some (L - Nj)) (some (L - 1 + Nj)) 2).at k)

/-- writing the product of one analysis step into the zero array, by assignment or by addition -/
theorem ana_write {flm : Arr2 ℂ} {psi : Arr3 ℂ} (hN1 : 1 ≤ Nj) (hLj1 : 1 ≤ Lj) (hL0 : 0 ≤ L0j)
    {a : Arr3 ℂ} (ha : a = Arr3.of (2 * Nj - 1) Lj (2 * Lj - 1) fun _ _ _ => 0) {e : Arr3 ℂ}
    (he : e = Arr3.of Nj (max 0 (Lj - min L0j Lj)) (2 * Lj - 1) fun k l m =>
      flm.v (L0j + l) (L - Lj + m) * ((starRingEnd ℂ) (psi.v j (L0j + l) (L - Nj + 2 * k)) *
        ((8 * Real.pi ^ 2 / (2 * (L0j + l : ℤ) + 1) : ℝ) : ℂ))) :
    a.assign (mkSl a.d none none 2) (mkSl a.r (some L0j) none) (mkSl a.c none none) e =
      .ok (anaW L Lj Nj L0j psi j flm) ∧
    a.addAt (mkSl a.d none none 2) (mkSl a.r (some L0j) none) (mkSl a.c none none) e =
      .ok (anaW L Lj Nj L0j psi j flm) := by
  subst ha
  have h1 : mkSl (2 * Nj - 1) none none 2 = ⟨0, Nj, 2⟩ := mkSl_all2 rfl hN1
  have h2 : mkSl Lj (some L0j) none = ⟨min L0j Lj, max 0 (Lj - min L0j Lj), 1⟩ := mkSl_from hL0
  have h3 : mkSl (2 * Lj - 1) none none = ⟨0, 2 * Lj - 1, 1⟩ := mkSl_all (by omega)
  have hd : e.d = Nj := by rw [he]; rfl
  have hr : e.r = max 0 (Lj - min L0j Lj) := by rw [he]; rfl
  have hc : e.c = 2 * Lj - 1 := by rw [he]; rfl
  have key : ∀ k l m, 0 ≤ k → k < 2 * Nj - 1 → 0 ≤ l → l < Lj → 0 ≤ m → m < 2 * Lj - 1 →
      (if (Sl.mk 0 Nj 2).mem k ∧ (Sl.mk (min L0j Lj) (max 0 (Lj - min L0j Lj)) 1).mem l ∧
          (Sl.mk 0 (2 * Lj - 1) 1).mem m then
        e.v (bix e.d ((Sl.mk 0 Nj 2).pos k)) (bix e.r ((Sl.mk (min L0j Lj) (max 0 (Lj - min L0j Lj)) 1).pos l))
          (bix e.c ((Sl.mk 0 (2 * Lj - 1) 1).pos m)) else 0) =
      (if k % 2 = 0 ∧ L0j ≤ l then
        flm.v l (L - Lj + m) * ((starRingEnd ℂ) (psi.v j l (L - Nj + k)) * ((8 * Real.pi ^ 2 / (2 * l + 1) : ℝ) : ℂ))
      else 0) := by
    intro k l m a b c d e' f
    simp only [Sl.mem_two, Sl.mem_one, Sl.pos_two, Sl.pos_one]
    by_cases hk : k % 2 = 0 ∧ L0j ≤ l
    · rw [if_pos (by omega), if_pos hk, hd, hr, hc, bix_self (by omega) (by omega), bix_self (by omega) (by omega),
        bix_self (by omega) (by omega)]
      rw [he, Arr3.of_v _ _ _ _ _ _ _ ⟨by omega, by omega, by omega, by omega, by omega, by omega⟩]
      have e1 : L0j + (l - min L0j Lj) = l := by omega
      have e2 : 2 * (k / 2) = k := by omega
      have e3 : m - 0 = m := by omega
      rw [e1, e2, e3]
    · rw [if_neg (by omega), if_neg hk]
  constructor
  · unfold Arr3.assign
    simp only [Arr3.of_d, Arr3.of_r, Arr3.of_c, h1, h2, h3]
    rw [if_pos ⟨Or.inl hd, Or.inl hr, Or.inl hc⟩]
    congr 1
    refine Arr3.of_congr fun k l m a b c d e' f => ?_
    rw [← key k l m a b c d e' f, Arr3.of_v _ _ _ _ _ _ _ ⟨a, b, c, d, e', f⟩]
  · unfold Arr3.addAt
    simp only [Arr3.of_d, Arr3.of_r, Arr3.of_c, h1, h2, h3]
    rw [if_pos ⟨Or.inl hd, Or.inl hr, Or.inl hc⟩]
    congr 1
    refine Arr3.of_congr fun k l m a b c d e' f => ?_
    rw [← key k l m a b c d e' f, Arr3.of_v _ _ _ _ _ _ _ ⟨a, b, c, d, e', f⟩, zero_add]

/-- the normalised scaling filter -/
theorem scalPhi_ok {phi : Arr1 ℝ} {Ls : ℤ} (hp : phi.n = L) (h1 : 1 ≤ Ls) (h2 : Ls ≤ L) :
    scalPhi phi Ls = .ok (Arr1.of Ls fun l => ((phi.v l * Real.sqrt (4 * Real.pi / (2 * l + 1)) : ℝ) : ℂ)) := by
  unfold scalPhi Arr1.zip norm4 arange Arr1.slice
  rw [hp, mkSl_to h2 (by omega)]
  have : max 0 (Ls - 0) = Ls := by omega
  simp only [Arr1.of_n, this, bdim_self, Py.bind_ok]
  congr 1
  refine Arr1.of_congr fun l a b => ?_
  rw [bix_self a b, Arr1.of_v _ _ _ ⟨a, b⟩, Arr1.of_v _ _ _ ⟨a, b⟩]
  simp [Sl.at]

/-- the scaling coefficients -/
theorem ana_scal {flm : Arr2 ℂ} {phi : Arr1 ℝ} {Ls : ℤ} (hfr : flm.r = L) (hfc : flm.c = 2 * L - 1)
    (h1 : 1 ≤ Ls) (h2 : Ls ≤ L) :
    einsum_lm_l (flm.slice (mkSl flm.r none (some Ls)) (mkSl flm.c (some (L - Ls)) (some (L - 1 + Ls))))
      (Arr1.of Ls fun l => ((phi.v l * Real.sqrt (4 * Real.pi / (2 * l + 1)) : ℝ) : ℂ)) =
    .ok (anaS L Ls phi flm) := by
  have hcs : mkSl flm.c (some (L - Ls)) (some (L - 1 + Ls)) = ⟨L - Ls, 2 * Ls - 1, 1⟩ := by
    rw [mkSl_mid (by omega) (by omega) (by omega)]; congr 1 <;> omega
  rw [hfr, mkSl_to h2 (by omega), hcs]
  unfold einsum_lm_l Arr2.slice anaS
  simp only [Arr2.of_r, Arr2.of_c, Arr1.of_n, bdim_self, Py.bind_ok]
  congr 1
  refine Arr2.of_congr fun l m a b c d => ?_
  rw [bix_self a b, Arr2.of_v _ _ _ _ _ ⟨a, b, c, d⟩, Arr1.of_v _ _ _ ⟨a, b⟩]
  simp [Sl.at]

/-- one synthesis step -/
theorem syn_step {psi t : Arr3 ℂ} {g : ℤ → ℤ → ℂ} (hr : psi.r = L) (hc : psi.c = 2 * L - 1)
    (hN1 : 1 ≤ Nj) (hN : Nj ≤ L) (hLj1 : 1 ≤ Lj) (hLj : Lj ≤ L) (hL0 : 0 ≤ L0j)
    (htd : t.d = 2 * Nj - 1) (htr : t.r = Lj) (htc : t.c = 2 * Lj - 1) {w : Arr2 ℂ}
    (hw : w = Arr2.of (mkSl psi.r (some L0j) (some Lj)).len (mkSl psi.c (some (L - Nj)) (some (L - 1 + Nj)) 2).len
      fun i k => psi.v j ((mkSl psi.r (some L0j) (some Lj)).at i)
        ((mkSl psi.c (some (L - Nj)) (some (L - 1 + Nj)) 2).at k)) :
    (do
      let e ← einsum_ln_nlm w (t.slice (mkSl t.d none none 2) (mkSl t.r (some L0j) none) (mkSl t.c none none))
      (Arr2.of L (2 * L - 1) g).addAt (mkSl L (some L0j) (some Lj))
        (mkSl (2 * L - 1) (some (L - Lj)) (some (L - 1 + Lj))) e) =
    .ok (Arr2.of L (2 * L - 1) fun l m => g l m + synW L Lj Nj L0j psi j t l m) := by
  have hm : mkSl L (some L0j) (some Lj) = ⟨min L0j L, max 0 (Lj - min L0j L), 1⟩ := mkSl_mid hL0 hLj (by omega)
  have hlen : max 0 (Lj - min L0j L) = max 0 (Lj - min L0j Lj) := by omega
  have hcs : mkSl (2 * L - 1) (some (L - Lj)) (some (L - 1 + Lj)) = ⟨L - Lj, 2 * Lj - 1, 1⟩ := by
    rw [mkSl_mid (by omega) (by omega) (by omega)]; congr 1 <;> omega
  have hps : mkSl psi.c (some (L - Nj)) (some (L - 1 + Nj)) 2 = ⟨L - Nj, Nj, 2⟩ :=
    mkSl_step2 (by omega) (by omega) (by omega) hN1
  have h1 : mkSl (2 * Nj - 1) none none 2 = ⟨0, Nj, 2⟩ := mkSl_all2 rfl hN1
  have h2 : mkSl Lj (some L0j) none = ⟨min L0j Lj, max 0 (Lj - min L0j Lj), 1⟩ := mkSl_from hL0
  have h3 : mkSl (2 * Lj - 1) none none = ⟨0, 2 * Lj - 1, 1⟩ := mkSl_all (by omega)
  rw [hr, hm, hps] at hw
  rw [htd, htr, htc, hm, hcs, h1, h2, h3, hlen]
  rw [hlen] at hw
  unfold einsum_ln_nlm Arr3.slice
  subst hw
  simp only [Arr2.of_r, Arr2.of_c, Arr3.of_d, Arr3.of_r, Arr3.of_c, bdim_self, Py.bind_ok]
  refine (Arr2.addAt_ok _ _ _ _ rfl rfl).trans ?_
  simp only [Arr2.of_r, Arr2.of_c]
  congr 1
  refine Arr2.of_congr fun l m a b c d => ?_
  rw [Arr2.of_v _ _ _ _ _ ⟨a, b, c, d⟩]
  simp only [Sl.mem_one, Sl.pos_one]
  unfold synW
  by_cases h : L0j ≤ l ∧ l < Lj ∧ L - Lj ≤ m ∧ m < L - 1 + Lj
  · rw [if_pos (by omega), if_pos h, bix_self (by omega) (by omega), bix_self (by omega) (by omega),
      Arr2.of_v _ _ _ _ _ ⟨by omega, by omega, by omega, by omega⟩]
    congr 1
    refine Finset.sum_congr rfl fun k hk => ?_
    rw [Finset.mem_Ico] at hk
    have hmin : min L0j L = L0j := by omega
    have hmin' : min L0j Lj = L0j := by omega
    rw [hmin, hmin', bix_self (by omega) (by omega), bix_self (by omega) (by omega),
      Arr2.of_v _ _ _ _ _ ⟨by omega, by omega, by omega, by omega⟩,
      Arr3.of_v _ _ _ _ _ _ _ ⟨by omega, by omega, by omega, by omega, by omega, by omega⟩]
    simp only [Sl.at]
    congr 2 <;> ring
  · rw [if_neg (by omega), if_neg h, add_zero]

/-- adding the scaling part -/
theorem syn_scal {s : Arr2 ℂ} {phi : Arr1 ℝ} {Ls : ℤ} {g : ℤ → ℤ → ℂ} (hsr : s.r = Ls) (hsc : s.c = 2 * Ls - 1)
    (h1 : 1 ≤ Ls) (h2 : Ls ≤ L) :
    (do
      let e ← einsum_lm_l s (Arr1.of Ls fun l => ((phi.v l * Real.sqrt (4 * Real.pi / (2 * l + 1)) : ℝ) : ℂ))
      (Arr2.of L (2 * L - 1) g).addAt (mkSl L none (some Ls))
        (mkSl (2 * L - 1) (some (L - Ls)) (some (L - 1 + Ls))) e) =
    .ok (Arr2.of L (2 * L - 1) fun l m => g l m + synS L Ls phi s l m) := by
  have hcs : mkSl (2 * L - 1) (some (L - Ls)) (some (L - 1 + Ls)) = ⟨L - Ls, 2 * Ls - 1, 1⟩ := by
    rw [mkSl_mid (by omega) (by omega) (by omega)]; congr 1 <;> omega
  rw [mkSl_to h2 (by omega), hcs]
  unfold einsum_lm_l
  simp only [Arr1.of_n, hsr, hsc, bdim_self, Py.bind_ok]
  refine (Arr2.addAt_ok _ _ _ _ rfl rfl).trans ?_
  simp only [Arr2.of_r, Arr2.of_c]
  congr 1
  refine Arr2.of_congr fun l m a b c d => ?_
  rw [Arr2.of_v _ _ _ _ _ ⟨a, b, c, d⟩]
  simp only [Sl.mem_one, Sl.pos_one]
  unfold synS
  by_cases h : l < Ls ∧ L - Ls ≤ m ∧ m < L - 1 + Ls
  · rw [if_pos (by omega), if_pos h, sub_zero, bix_self (by omega) (by omega), bix_self (by omega) (by omega),
      Arr2.of_v _ _ _ _ _ ⟨by omega, by omega, by omega, by omega⟩, bix_self (by omega) (by omega),
      Arr1.of_v _ _ _ ⟨by omega, by omega⟩]
  · rw [if_neg (by omega), if_neg h, add_zero]

/-! ### scales with more directions than degrees -/

/-- the slice of orders of a scale with `Nj > L`: its start `L - Nj < 0` wraps around -/
theorem mkSl_wrap {n Nj : ℤ} (hL : 2 ≤ L) (hn : n = 2 * L - 1) (h : L < Nj) :
    mkSl n (some (L - Nj)) (some (L - 1 + Nj)) 2 = ⟨max (3 * L - 1 - Nj) 0, (2 * L - max (3 * L - 1 - Nj) 0) / 2, 2⟩ := by
  have e1 : slBound n (L - Nj) = max (3 * L - 1 - Nj) 0 := by unfold slBound; rw [if_pos (by omega)]; omega
  have e2 : slBound n (L - 1 + Nj) = 2 * L - 1 := by unfold slBound; rw [if_neg (by omega)]; omega
  unfold mkSl
  simp only [e1, e2, Sl.mk.injEq, true_and, and_true]
  omega

/-- one analysis step of the vectorised code at a scale with `Nj = L + 1` or `L + 2`: a single column of the filter is
read and broadcast; if this column is zero, so is the result -/
theorem wrap_step {flm : Arr2 ℂ} {psi : Arr3 ℂ} (hL : 2 ≤ L) (hfr : flm.r = L) (hfc : flm.c = 2 * L - 1)
    (hd : j < psi.d) (hc : psi.c = 2 * L - 1) (hj : 0 ≤ j) (hN1 : L < Nj) (hN : Nj ≤ L + 2) (hLj1 : 1 ≤ Lj) (hLj : Lj ≤ L)
    (hL0 : 0 ≤ L0j) (hz : ∀ l, psi.v j l (3 * L - 1 - Nj) = 0)
    {a : Arr3 ℂ} (ha : a = Arr3.of (2 * Nj - 1) Lj (2 * Lj - 1) fun _ _ _ => 0) :
    ∃ e, einsum_lm_ln
        (flm.slice (mkSl flm.r (some L0j) (some Lj)) (mkSl flm.c (some (L - Lj)) (some (L - 1 + Lj))))
        (Arr2.of (mkSl L (some L0j) (some Lj)).len (mkSl psi.c (some (L - Nj)) (some (L - 1 + Nj)) 2).len
          fun i k => (Arr3.of psi.d L psi.c fun j l n =>
            (starRingEnd ℂ) (psi.v j l n) * ((8 * Real.pi ^ 2 / (2 * l + 1) : ℝ) : ℂ)).v j
            ((mkSl L (some L0j) (some Lj)).at i) ((mkSl psi.c (some (L - Nj)) (some (L - 1 + Nj)) 2).at k)) = .ok e ∧
      a.assign (mkSl a.d none none 2) (mkSl a.r (some L0j) none) (mkSl a.c none none) e = .ok a ∧
      a.addAt (mkSl a.d none none 2) (mkSl a.r (some L0j) none) (mkSl a.c none none) e = .ok a := by
  subst ha
  have hm : mkSl L (some L0j) (some Lj) = ⟨min L0j L, max 0 (Lj - min L0j L), 1⟩ := mkSl_mid hL0 hLj (by omega)
  have hlen : max 0 (Lj - min L0j L) = max 0 (Lj - min L0j Lj) := by omega
  have hcs : mkSl flm.c (some (L - Lj)) (some (L - 1 + Lj)) = ⟨L - Lj, 2 * Lj - 1, 1⟩ := by
    rw [mkSl_mid (by omega) (by omega) (by omega)]; congr 1 <;> omega
  have hps : mkSl psi.c (some (L - Nj)) (some (L - 1 + Nj)) 2 = ⟨3 * L - 1 - Nj, 1, 2⟩ := by
    rw [mkSl_wrap hL hc hN1]; congr 1 <;> omega
  have h1 : mkSl (2 * Nj - 1) none none 2 = ⟨0, Nj, 2⟩ := mkSl_all2 rfl (by omega)
  have h2 : mkSl Lj (some L0j) none = ⟨min L0j Lj, max 0 (Lj - min L0j Lj), 1⟩ := mkSl_from hL0
  have h3 : mkSl (2 * Lj - 1) none none = ⟨0, 2 * Lj - 1, 1⟩ := mkSl_all (by omega)
  rw [hfr, hm, hcs, hps, hlen]
  unfold einsum_lm_ln Arr2.slice
  simp only [Arr2.of_r, Arr2.of_c, bdim_self, Py.bind_ok]
  refine ⟨_, rfl, ?_⟩
  have hzero : ∀ x y z, (Arr3.of 1 (max 0 (Lj - min L0j Lj)) (2 * Lj - 1) fun n i m =>
      (Arr2.of (max 0 (Lj - min L0j Lj)) (2 * Lj - 1) fun i k =>
        flm.v ((Sl.mk (min L0j L) (max 0 (Lj - min L0j Lj)) 1).at i) ((Sl.mk (L - Lj) (2 * Lj - 1) 1).at k)).v
        (bix (max 0 (Lj - min L0j Lj)) i) m *
      (Arr2.of (max 0 (Lj - min L0j Lj)) 1 fun i k => (Arr3.of psi.d L psi.c fun j l n =>
            (starRingEnd ℂ) (psi.v j l n) * ((8 * Real.pi ^ 2 / (2 * l + 1) : ℝ) : ℂ)).v j
            ((Sl.mk (min L0j L) (max 0 (Lj - min L0j Lj)) 1).at i) ((Sl.mk (3 * L - 1 - Nj) 1 2).at k)).v
        (bix (max 0 (Lj - min L0j Lj)) i) n).v x y z = 0 := by
    intro x y z
    by_cases hx : 0 ≤ x ∧ x < 1 ∧ 0 ≤ y ∧ y < max 0 (Lj - min L0j Lj) ∧ 0 ≤ z ∧ z < 2 * Lj - 1
    · rw [Arr3.of_v _ _ _ _ _ _ _ hx]
      generalize bix _ _ = y'
      by_cases hy : 0 ≤ y' ∧ y' < max 0 (Lj - min L0j Lj) ∧ 0 ≤ x ∧ x < 1
      · have hx0 : x = 0 := by omega
        rw [Arr2.of_v _ _ (fun i k => (Arr3.of psi.d L psi.c _).v j _ _) _ _ hy, hx0]
        simp only [Sl.at, mul_one, zero_mul, add_zero]
        rw [Arr3.of_v _ _ _ _ _ _ _ ⟨hj, hd, by omega, by omega, by omega, by omega⟩, hz]
        simp
      · rw [(Arr2.of (max 0 (Lj - min L0j Lj)) 1 _).junk _ _ hy, mul_zero]
    · rw [(Arr3.of 1 (max 0 (Lj - min L0j Lj)) (2 * Lj - 1) _).junk _ _ _ hx]
  constructor
  · unfold Arr3.assign
    simp only [Arr3.of_d, Arr3.of_r, Arr3.of_c, h1, h2, h3]
    rw [if_pos ⟨Or.inr rfl, Or.inl rfl, Or.inl rfl⟩]
    congr 1
    refine Arr3.of_congr fun k l m a b c d e f => ?_
    rw [hzero, Arr3.of_v _ _ _ _ _ _ _ ⟨a, b, c, d, e, f⟩, ite_self]
  · unfold Arr3.addAt
    simp only [Arr3.of_d, Arr3.of_r, Arr3.of_c, h1, h2, h3]
    rw [if_pos ⟨Or.inr rfl, Or.inl rfl, Or.inl rfl⟩]
    congr 1
    refine Arr3.of_congr fun k l m a b c d e f => ?_
    rw [hzero, Arr3.of_v _ _ _ _ _ _ _ ⟨a, b, c, d, e, f⟩, add_zero, ite_self]

/-- one synthesis step at such a scale adds nothing -/
theorem syn_wrap {psi t : Arr3 ℂ} {g : ℤ → ℤ → ℂ} (hL : 2 ≤ L) (hr : psi.r = L) (hc : psi.c = 2 * L - 1)
    (hN1 : L < Nj) (hN : Nj ≤ L + 2) (hLj1 : 1 ≤ Lj) (hLj : Lj ≤ L) (hL0 : 0 ≤ L0j)
    (hz : ∀ l, psi.v j l (3 * L - 1 - Nj) = 0)
    (htd : t.d = 2 * Nj - 1) (htr : t.r = Lj) (htc : t.c = 2 * Lj - 1) {w : Arr2 ℂ}
    (hw : w = Arr2.of (mkSl psi.r (some L0j) (some Lj)).len (mkSl psi.c (some (L - Nj)) (some (L - 1 + Nj)) 2).len
      fun i k => psi.v j ((mkSl psi.r (some L0j) (some Lj)).at i)
        ((mkSl psi.c (some (L - Nj)) (some (L - 1 + Nj)) 2).at k)) :
    (do
      let e ← einsum_ln_nlm w (t.slice (mkSl t.d none none 2) (mkSl t.r (some L0j) none) (mkSl t.c none none))
      (Arr2.of L (2 * L - 1) g).addAt (mkSl L (some L0j) (some Lj))
        (mkSl (2 * L - 1) (some (L - Lj)) (some (L - 1 + Lj))) e) =
    .ok (Arr2.of L (2 * L - 1) g) := by
  have hm : mkSl L (some L0j) (some Lj) = ⟨min L0j L, max 0 (Lj - min L0j L), 1⟩ := mkSl_mid hL0 hLj (by omega)
  have hlen : max 0 (Lj - min L0j L) = max 0 (Lj - min L0j Lj) := by omega
  have hcs : mkSl (2 * L - 1) (some (L - Lj)) (some (L - 1 + Lj)) = ⟨L - Lj, 2 * Lj - 1, 1⟩ := by
    rw [mkSl_mid (by omega) (by omega) (by omega)]; congr 1 <;> omega
  have hps : mkSl psi.c (some (L - Nj)) (some (L - 1 + Nj)) 2 = ⟨3 * L - 1 - Nj, 1, 2⟩ := by
    rw [mkSl_wrap hL hc hN1]; congr 1 <;> omega
  have h1 : mkSl (2 * Nj - 1) none none 2 = ⟨0, Nj, 2⟩ := mkSl_all2 rfl (by omega)
  have h2 : mkSl Lj (some L0j) none = ⟨min L0j Lj, max 0 (Lj - min L0j Lj), 1⟩ := mkSl_from hL0
  have h3 : mkSl (2 * Lj - 1) none none = ⟨0, 2 * Lj - 1, 1⟩ := mkSl_all (by omega)
  rw [hr, hm, hps] at hw
  rw [htd, htr, htc, hm, hcs, h1, h2, h3, hlen]
  rw [hlen] at hw
  unfold einsum_ln_nlm Arr3.slice
  have hw0 : ∀ i k, w.v i k = 0 := by
    intro i k
    rw [hw]
    by_cases hi : 0 ≤ i ∧ i < max 0 (Lj - min L0j Lj) ∧ 0 ≤ k ∧ k < 1
    · have hk : k = 0 := by omega
      rw [Arr2.of_v _ _ _ _ _ hi, hk]
      simp only [Sl.at, zero_mul, add_zero]
      exact hz _
    · exact Arr2.of_out _ _ _ _ _ hi
  have hwr : w.r = max 0 (Lj - min L0j Lj) := by rw [hw]; rfl
  have hwc : w.c = 1 := by rw [hw]; rfl
  have hbd : bdim 1 Nj = .ok Nj := by
    unfold bdim
    rw [if_neg (by omega), if_pos rfl]
  simp only [hwr, hwc, Arr3.of_d, Arr3.of_r, Arr3.of_c, bdim_self, hbd, Py.bind_ok, hw0, zero_mul, Finset.sum_const_zero]
  refine (Arr2.addAt_ok _ _ _ _ rfl rfl).trans ?_
  simp only [Arr2.of_r, Arr2.of_c]
  congr 1
  refine Arr2.of_congr fun l m a b c d => ?_
  rw [Arr2.of_v _ _ _ _ _ ⟨a, b, c, d⟩]
  have hzz : ∀ (r c i k : ℤ), (Arr2.of r c fun _ _ => (0 : ℂ)).v i k = 0 := by
    intro r c i k
    by_cases hi : 0 ≤ i ∧ i < r ∧ 0 ≤ k ∧ k < c
    · exact Arr2.of_v _ _ _ _ _ hi
    · exact Arr2.of_out _ _ _ _ _ hi
  rw [hzz, add_zero, ite_self]

end

/-! ## Loops with one engine call per iteration -/

/-- A loop that computes `m j` in each iteration and stores the result; `S j r` is the loop state before iteration `j`,
a function of the results `r i`, `i < j`. -/
theorem mapM_loop {σ β : Type} {a b : ℤ} (m : ℤ → Py β) (S : ℤ → (ℤ → β) → σ) {body : σ → ℤ → Py σ}
    (hab : a ≤ b) (hS : ∀ i r r', (∀ j, a ≤ j → j < i → r j = r' j) → S i r = S i r')
    (hbody : ∀ i r, a ≤ i → i < b → body (S i r) i = (m i >>= fun x => .ok (S (i + 1) (Function.update r i x))))
    (r0 : ℤ → β) {s0 : σ} (h0 : s0 = S a r0) :
    (pyRange a b).foldlM body s0 =
      ((pyRange a b).mapM m >>= fun l => .ok (S b fun j => (l[(j - a).toNat]?).getD (r0 j))) := by
  subst h0
  obtain ⟨k, hk⟩ : ∃ k : ℕ, (b - a).toNat = k := ⟨_, rfl⟩
  -- generalise over the start of the range, with the results before it fixed
  suffices H : ∀ (k : ℕ) (a' : ℤ) (r : ℤ → β), a ≤ a' → a' ≤ b → (b - a').toNat = k →
      (pyRange a' b).foldlM body (S a' r) =
        ((pyRange a' b).mapM m >>= fun l => .ok (S b fun j => if j < a' then r j else (l[(j - a').toNat]?).getD (r j)))
      by
    refine (H k a r0 le_rfl hab hk).trans ?_
    congr 1; funext l; congr 1
    refine hS _ _ _ fun j h1 _ => ?_
    rw [if_neg (by omega)]
  intro k
  induction k with
  | zero =>
    intro a' r h1 h2 h3
    have : a' = b := by omega
    subst this
    rw [pyRange_empty le_rfl]
    show Except.ok _ = Except.ok _
    congr 1
    refine hS _ _ _ fun j _ h => ?_
    rw [if_pos h]
  | succ k ih =>
    intro a' r h1 h2 h3
    rw [pyRange_succ (by omega), List.foldlM_cons, List.mapM_cons, hbody a' r h1 (by omega)]
    rcases hm : m a' with e | x
    · rfl
    simp only [Py.bind_ok]
    rw [ih (a' + 1) (Function.update r a' x) (by omega) (by omega) (by omega)]
    rcases hl : (pyRange (a' + 1) b).mapM m with e | l
    · rfl
    simp only [Py.bind_ok, Py.pure_eq]
    congr 1
    refine hS _ _ _ fun j h4 h5 => ?_
    rcases lt_trichotomy j a' with h | h | h
    · rw [if_pos (by omega), if_pos h, Function.update_of_ne (by omega)]
    · subst h
      rw [if_pos (by omega), if_neg (by omega), Function.update_self]
      simp
    · rw [if_neg (by omega), if_neg (by omega), Function.update_of_ne (by omega)]
      have : (j - a').toNat = (j - (a' + 1)).toNat + 1 := by omega
      rw [this, List.getElem?_cons_succ]

theorem Py.bind_congr {α β : Type} {x : Py α} {k k' : α → Py β} (h : ∀ a, x = .ok a → k a = k' a) :
    (x >>= k) = (x >>= k') := by
  rcases x with e | a
  · rfl
  · exact h a rfl

/-- `mapM_loop` followed by the rest of the program -/
theorem mapM_loop_then {σ β γ : Type} {a b : ℤ} (m : ℤ → Py β) (S : ℤ → (ℤ → β) → σ) {body : σ → ℤ → Py σ}
    {K : σ → Py γ} {K' : List β → Py γ} (r0 : ℤ → β) {s0 : σ}
    (hab : a ≤ b) (hS : ∀ i r r', (∀ j, a ≤ j → j < i → r j = r' j) → S i r = S i r')
    (h0 : s0 = S a r0)
    (hbody : ∀ i r, a ≤ i → i < b → body (S i r) i = (m i >>= fun x => .ok (S (i + 1) (Function.update r i x))))
    (hK : ∀ l, (pyRange a b).mapM m = .ok l → K (S b fun j => (l[(j - a).toNat]?).getD (r0 j)) = K' l) :
    ((pyRange a b).foldlM body s0 >>= K) = ((pyRange a b).mapM m >>= K') := by
  rw [mapM_loop m S hab hS hbody r0 h0]
  rcases h : (pyRange a b).mapM m with e | l
  · rfl
  · exact hK l h

/-- one more entry of a list has received its final value -/
theorem map_update_step {β : Type} {a b j : ℤ} (f z : ℤ → β) {x : β} (hx : x = f j) :
    (pyRange a b).map (Function.update (fun k => if k < j then f k else z k) j x) =
      (pyRange a b).map fun k => if k < j + 1 then f k else z k := by
  refine map_range_congr fun k _ _ => ?_
  by_cases h : k = j
  · subst h; rw [Function.update_self, if_pos (by omega), hx]
  · rw [Function.update_of_ne h]
    have : (k < j) ↔ (k < j + 1) := by omega
    simp only [this]

/-- the same when the final values are those of an updated function -/
theorem map_update_step' {β : Type} {a b j : ℤ} (r z : ℤ → β) (x : β) :
    (pyRange a b).map (Function.update (fun k => if k < j then r k else z k) j x) =
      (pyRange a b).map fun k => if k < j + 1 then Function.update r j x k else z k := by
  refine map_range_congr fun k _ _ => ?_
  by_cases h : k = j
  · subst h; rw [Function.update_self, if_pos (by omega), Function.update_self]
  · rw [Function.update_of_ne h, Function.update_of_ne h]
    have : (k < j) ↔ (k < j + 1) := by omega
    simp only [this]

/-- the list of results is recovered from its entries -/
theorem mapM_getD {β : Type} {a b : ℤ} {m : ℤ → Py β} {l : List β} (h : (pyRange a b).mapM m = .ok l) (r0 : ℤ → β) :
    (pyRange a b).map (fun j => (l[(j - a).toNat]?).getD (r0 j)) = l := by
  have hlen := mapM_length h
  rw [length_pyRange] at hlen
  apply List.ext_getElem
  · simp [hlen]
  · intro i h1 h2
    simp only [List.getElem_map, pyRange_getElem]
    have : (a + (i : ℤ) - a).toNat = i := by omega
    rw [this, List.getElem?_eq_getElem h2]; rfl

end S2wav
