import Verif.Props.Harmonic
import Verif.Props.Dyadic
import Verif.Props.Linear
import Verif.Props.Equiv

/-! # What changes with the band-limit, the lowest scale and the sign of the spin (C74 - C77), scattering (C78)

The wavelets of one scale are the same functions whatever `L`, `J_min` and `spin`; only the part of them that is stored
differs. -/

namespace S2wav
open Classical

/-- the type of the three builders of directional filters -/
abbrev Builder := (jm : JMax) → (L N J_min : ℤ) → (lam : ℝ) → (spin spin0 : ℤ) → Py (Arr3 ℂ × Arr1 ℝ)

/-- `B` is one of the three builders -/
def IsBuilder (B : Builder) : Prop :=
  B = filters_directional ∨ B = filters_directional_vectorised ∨ B = filters_directional_jax

section
variable {jm jm' : JMax} {L L' N J J' J_min J_min' : ℤ} {lam : ℝ} {spin spin' spin0 : ℤ} {psi psi' : Arr3 ℂ}
  {phi phi' : Arr1 ℝ}

theorem builder_built {B : Builder} (hB : IsBuilder B) (h : B jm L N J_min lam spin spin0 = .ok (psi, phi)) :
    DirBuilt jm L N J_min lam spin spin0 psi phi := by
  rcases hB with rfl | rfl | rfl
  · exact Or.inl h
  · exact Or.inr (Or.inl h)
  · exact Or.inr (Or.inr h)

/-- the axisymmetric part of a builder's wavelets is determined by the builder, `lam`, the scale and the degree -/
theorem builder_part {B : Builder} (hB : IsBuilder B) (hT : TopScale jm L lam J) (hT' : TopScale jm' L' lam J') (hN : 1 ≤ N)
    (h : B jm L N J_min lam spin spin0 = .ok (psi, phi)) (h' : B jm' L' N J_min' lam spin' spin0 = .ok (psi', phi')) :
    ∃ p p', psi = Arr3.of (J + 1) L (2 * L - 1) (fun j l k => psiDirOf N p (max |spin| |spin0|) spin0 j l (k - (L - 1))) ∧
      psi' = Arr3.of (J' + 1) L' (2 * L' - 1) (fun j l k => psiDirOf N p' (max |spin'| |spin0|) spin0 j l (k - (L' - 1))) ∧
      ∀ j l, J_min ≤ j → J_min' ≤ j → j ≤ J → j ≤ J' → 0 ≤ l → l < L → l < L' → p j l = p' j l := by
  obtain ⟨h0, h1, -, -⟩ := dirBuilt_elim hT hN (builder_built hB h)
  obtain ⟨h0', h1', -, -⟩ := dirBuilt_elim hT' hN (builder_built hB h')
  have hz : ∀ {jm : JMax} {L J_min spin : ℤ} {r}, filters_directional_vectorised jm L N J_min lam spin spin0 = .ok r ∨
      filters_directional_jax jm L N J_min lam spin spin0 = .ok r → spin0 = 0 := by
    intro jm L J_min spin r h
    by_contra hs
    obtain ⟨e1, e2⟩ := filters_directional_spin0_err jm L N J_min lam spin hs
    rw [e1, e2] at h
    rcases h with h | h <;> cases h
  have hm : ∀ s : ℤ, max |s| |0| = |s| := fun s => by simp
  rcases hB with rfl | rfl | rfl
  · obtain ⟨p, -, hp, hp1, -, hp3⟩ := filters_directional_ok hT hN h0 h1 spin spin0
    obtain ⟨p', -, hp', hp1', -, hp3'⟩ := filters_directional_ok hT' hN h0' h1' spin' spin0
    rw [hp] at h; cases h
    rw [hp'] at h'; cases h'
    refine ⟨p, p', rfl, rfl, fun j l hj hj' hJ hJ' hl => ?_⟩
    obtain ⟨i, rfl⟩ : ∃ i : ℕ, l = i := ⟨l.toNat, by omega⟩
    induction i with
    | zero =>
      intro hL hL'
      have : 0 ≤ kv lam (j + 1) ((0 : ℕ) : ℤ) - kv lam j ((0 : ℕ) : ℤ) := by
        rw [Nat.cast_zero, kv, kv, kval_zero hT.hlam, kval_zero hT.hlam, sub_self]
      rw [hp1 j _ hj hJ hl hL this, hp1' j _ hj' hJ' hl hL' this]
    | succ i ih =>
      intro hL hL'
      by_cases hd : 0 ≤ kv lam (j + 1) ((i + 1 : ℕ) : ℤ) - kv lam j ((i + 1 : ℕ) : ℤ)
      · rw [hp1 j _ hj hJ hl hL hd, hp1' j _ hj' hJ' hl hL' hd]
      · rw [hp3 j _ hj hJ hl hL (not_le.1 hd), hp3' j _ hj' hJ' hl hL' (not_le.1 hd)]
        have e : ((i + 1 : ℕ) : ℤ) - 1 = i := by push_cast; ring
        rw [e]
        exact ih (by omega) (by omega) (by omega)
  · have e := hz (Or.inl h)
    subst e
    rw [filters_directional_vectorised_ok hT hN h0 h1] at h
    rw [filters_directional_vectorised_ok hT' hN h0' h1'] at h'
    cases h; cases h'
    exact ⟨psiAx lam, psiAx lam, by rw [hm]; rfl, by rw [hm]; rfl, fun _ _ _ _ _ _ _ _ _ => rfl⟩
  · have e := hz (Or.inr h)
    subst e
    rw [filters_directional_jax_ok hT hN h0 h1] at h
    rw [filters_directional_jax_ok hT' hN h0' h1'] at h'
    cases h; cases h'
    exact ⟨psiAx lam, psiAx lam, by rw [hm]; rfl, by rw [hm]; rfl, fun _ _ _ _ _ _ _ _ _ => rfl⟩

/-- the entry of order `n` of a directional filter, also for orders outside the array -/
theorem dir_entry {p : ℤ → ℤ → ℝ} {elmin j l n : ℤ} (hN : 1 ≤ N) (hj0 : 0 ≤ j) (hj : j ≤ J) (hl0 : 0 ≤ l) (hl : l < L) :
    (Arr3.of (J + 1) L (2 * L - 1) fun j l k => psiDirOf N p elmin spin0 j l (k - (L - 1))).v j l (L - 1 + n) =
      psiDirOf N p elmin spin0 j l n := by
  have e : L - 1 + n - (L - 1) = n := by ring
  by_cases hn : 0 ≤ L - 1 + n ∧ L - 1 + n < 2 * L - 1
  · rw [Arr3.of_v _ _ _ _ _ _ _ ⟨hj0, by omega, hl0, hl, hn⟩, e]
  · rw [Arr3.of_out _ _ _ _ _ _ _ (fun h => hn h.2.2.2.2)]
    by_contra hne
    have := abs_le.1 (psiDirOf_support hN (Ne.symm hne)).2.2.2.1
    omega

theorem builder_entry {B : Builder} (hB : IsBuilder B) (hT : TopScale jm L lam J) (hT' : TopScale jm' L' lam J') (hN : 1 ≤ N)
    (h : B jm L N J_min lam spin spin0 = .ok (psi, phi)) (h' : B jm' L' N J_min' lam spin' spin0 = .ok (psi', phi'))
    {l : ℤ} (hl0 : 0 ≤ l) (hl : l < L) (hl' : l < L') (hm : l < max |spin| |spin0| ↔ l < max |spin'| |spin0|) :
    (∀ j n, J_min ≤ j → J_min' ≤ j → j ≤ J → j ≤ J' → psi.v j l (L - 1 + n) = psi'.v j l (L' - 1 + n)) ∧
    (J_min = J_min' → phi.v l = phi'.v l) := by
  obtain ⟨h0, h1, rfl, -⟩ := dirBuilt_elim hT hN (builder_built hB h)
  obtain ⟨h0', h1', rfl, -⟩ := dirBuilt_elim hT' hN (builder_built hB h')
  obtain ⟨p, p', rfl, rfl, hp⟩ := builder_part hB hT hT' hN h h'
  constructor
  · intro j n a b c d
    rw [dir_entry hN (by omega) c hl0 hl, dir_entry hN (by omega) d hl0 hl', psiDirOf, psiDirOf]
    simp only [hm, hp j l a b c d hl0 hl hl']
  · intro e
    rw [Arr1.of_v _ _ _ ⟨hl0, hl⟩, Arr1.of_v _ _ _ ⟨hl0, hl'⟩, phiDir, phiDir]
    simp only [hm, e]

/-- **C74** the filters of one builder at two band-limits, two lowest scales and two spins (possibly with differently rounded
`j_max`) agree at every common scale, degree and order at or above both spins; for equal lowest scales so do the scaling
functions. -/
theorem C74_nested {B : Builder} (hB : IsBuilder B) (hT : TopScale jm L lam J) (hT' : TopScale jm' L' lam J') (hN : 1 ≤ N)
    (h : B jm L N J_min lam spin spin0 = .ok (psi, phi)) (h' : B jm' L' N J_min' lam spin' spin0 = .ok (psi', phi'))
    {l : ℤ} (hl : l < L) (hl' : l < L') (hs : |spin| ≤ l) (hs' : |spin'| ≤ l) :
    (∀ j n, J_min ≤ j → J_min' ≤ j → j ≤ J → j ≤ J' → psi.v j l (L - 1 + n) = psi'.v j l (L' - 1 + n)) ∧
    (J_min = J_min' → phi.v l = phi'.v l) :=
  builder_entry hB hT hT' hN h h' ((abs_nonneg _).trans hs) hl hl' (by rw [lt_max_iff, lt_max_iff]; omega)

/-- band-limits 3 and 8, lowest scales 0 and 1, spins 0 and 1: the wavelets of scale 2 agree at degree 2 -/
example (B : Builder) (hB : IsBuilder B) {psi psi' : Arr3 ℂ} {phi phi' : Arr1 ℝ}
    (h : B j_max 3 2 0 2 0 0 = .ok (psi, phi)) (h' : B j_max 8 2 1 2 1 0 = .ok (psi', phi')) :
    psi.v 2 2 (3 - 1 + 1) = psi'.v 2 2 (8 - 1 + 1) :=
  (C74_nested hB (TopScale.of_j_max (by norm_num) (by norm_num) j_max_3_2)
    (TopScale.of_j_max (by norm_num) (by norm_num) j_max_8_2) (by norm_num) h h' (l := 2) (by norm_num) (by norm_num)
    (by norm_num) (by norm_num)).1 2 1 (by norm_num) (by norm_num) (by norm_num) (by norm_num)

/-- both calls of the example succeed for every builder -/
example (B : Builder) (hB : IsBuilder B) :
    (∃ r, B j_max 3 2 0 2 0 0 = .ok r) ∧ ∃ r, B j_max 8 2 1 2 1 0 = .ok r := by
  have hT := TopScale.of_j_max (L := 3) (lam := 2) (by norm_num) (by norm_num) j_max_3_2
  have hT' := TopScale.of_j_max (L := 8) (lam := 2) (by norm_num) (by norm_num) j_max_8_2
  rcases hB with rfl | rfl | rfl
  · obtain ⟨_, -, h, -⟩ := filters_directional_ok hT (N := 2) (J_min := 0) (by norm_num) (by norm_num) (by norm_num) 0 0
    obtain ⟨_, -, h', -⟩ := filters_directional_ok hT' (N := 2) (J_min := 1) (by norm_num) (by norm_num) (by norm_num) 1 0
    exact ⟨⟨_, h⟩, _, h'⟩
  · exact ⟨⟨_, filters_directional_vectorised_ok hT (N := 2) (J_min := 0) (by norm_num) (by norm_num) (by norm_num) 0⟩, _,
      filters_directional_vectorised_ok hT' (N := 2) (J_min := 1) (by norm_num) (by norm_num) (by norm_num) 1⟩
  · exact ⟨⟨_, filters_directional_jax_ok hT (N := 2) (J_min := 0) (by norm_num) (by norm_num) (by norm_num) 0⟩, _,
      filters_directional_jax_ok hT' (N := 2) (J_min := 1) (by norm_num) (by norm_num) (by norm_num) 1⟩

/-- **C74** the filters depend on the spin only through its absolute value, including which calls raise. -/
theorem C74_spin_sign {B : Builder} (hB : IsBuilder B) (jm : JMax) (L N J_min : ℤ) (lam : ℝ) (spin spin0 : ℤ) :
    B jm L N J_min lam (-spin) spin0 = B jm L N J_min lam spin spin0 := by
  rcases hB with rfl | rfl | rfl
  · unfold filters_directional; simp only [abs_neg]
  · unfold filters_directional_vectorised; simp only [abs_neg]
  · unfold filters_directional_jax; simp only [abs_neg]

/-- **C75** refinement: raising the lowest scale from `J_min` to `J_min'` merges the scaling function and the wavelets of
the scales `J_min, ..., J_min' - 1` into the new scaling function, with the same total energy at every degree. -/
theorem C75_merge {B : Builder} (hB : IsBuilder B) (hT : TopScale jm L lam J) (hN : 1 ≤ N) {k : Arr2 ℝ}
    (hk : k_lam jm L lam 300 = .ok k) (hno : NoOvershoot k)
    (h : B jm L N J_min lam spin spin0 = .ok (psi, phi)) (h' : B jm L N J_min' lam spin spin0 = .ok (psi', phi'))
    (hJ : J_min ≤ J_min') {l : ℤ} (hl0 : 0 ≤ l) (hl : l < L) :
    4 * Real.pi / (2 * l + 1) * phi'.v l ^ 2 = 4 * Real.pi / (2 * l + 1) * phi.v l ^ 2 +
      8 * Real.pi ^ 2 / (2 * l + 1) *
        ∑ j ∈ Finset.Ico J_min J_min', ∑ n ∈ Finset.Ico 0 (2 * L - 1), ‖psi.v j l n‖ ^ 2 := by
  have hd := builder_built hB h
  have hd' := builder_built hB h'
  obtain ⟨h0, h1, -, -⟩ := dirBuilt_elim hT hN hd
  obtain ⟨h0', h1', -, -⟩ := dirBuilt_elim hT hN hd'
  have e2 : frameSum J_min' J L psi' phi' l = frameSum J_min J L psi phi l := by
    by_cases hs : max |spin| |spin0| ≤ l
    · have hs1 := (le_max_left _ _).trans hs
      have hs2 := (le_max_right _ _).trans hs
      rw [(dir_admissible hT hN hk).2.1 hd hno l hl0 hl hs1 hs2, (dir_admissible hT hN hk).2.1 hd' hno l hl0 hl hs1 hs2]
    · rw [(dir_admissible hT hN hk).2.2 hd l (not_le.1 hs), (dir_admissible hT hN hk).2.2 hd' l (not_le.1 hs)]
  unfold frameSum at e2
  have e3 : ∀ j ∈ Finset.Icc J_min' J, ∀ n ∈ Finset.Ico 0 (2 * L - 1), psi'.v j l n = psi.v j l n := by
    intro j hj n hn
    rw [Finset.mem_Icc] at hj
    have := (builder_entry hB hT hT hN h h' hl0 hl hl Iff.rfl).1 j (n - (L - 1)) (by omega) hj.1 hj.2 hj.2
    rw [show L - 1 + (n - (L - 1)) = n by ring] at this
    exact this.symm
  rw [Finset.sum_congr rfl fun j hj => Finset.sum_congr rfl fun n hn => by rw [e3 j hj n hn]] at e2
  have e4 : Finset.Icc J_min J = Finset.Ico J_min J_min' ∪ Finset.Icc J_min' J := by
    ext j
    rw [Finset.mem_union, Finset.mem_Icc, Finset.mem_Icc, Finset.mem_Ico]
    omega
  have e5 : Disjoint (Finset.Ico J_min J_min') (Finset.Icc J_min' J) := by
    rw [Finset.disjoint_left]
    intro j hj hj'
    rw [Finset.mem_Ico] at hj
    rw [Finset.mem_Icc] at hj'
    omega
  rw [e4, Finset.sum_union e5] at e2
  linarith

/-- `lam = 2`, `L = 3`: the scaling function at `J_min = 1` has the energy of the one at `J_min = 0` and the wavelet 0 -/
example (B : Builder) (hB : IsBuilder B) {psi psi' : Arr3 ℂ} {phi phi' : Arr1 ℝ}
    (h : B j_max 3 2 0 2 0 0 = .ok (psi, phi)) (h' : B j_max 3 2 1 2 0 0 = .ok (psi', phi')) :
    4 * Real.pi / 3 * phi'.v 1 ^ 2 = 4 * Real.pi / 3 * phi.v 1 ^ 2 +
      8 * Real.pi ^ 2 / 3 * ∑ n ∈ Finset.Ico 0 5, ‖psi.v 0 1 n‖ ^ 2 := by
  obtain ⟨k, hk, hno⟩ := noOvershoot_3_2
  have := C75_merge hB (TopScale.of_j_max (by norm_num) (by norm_num) j_max_3_2) (by norm_num) hk hno h h' (by norm_num)
    (l := 1) (by norm_num) (by norm_num)
  rw [show Finset.Ico (0 : ℤ) 1 = {0} by decide, Finset.sum_singleton] at this
  norm_num at this ⊢
  exact this

end

section
variable {jm jm' : JMax} {c : Cfg} {J J' : ℤ} {b : Backend} {psi psi' : Arr3 ℂ} {phi phi' : Arr1 ℝ} {f g : Px}
  {flm glm : Arr2 ℂ} {w w' : List Px} {s s' : Px} {W W' : ℤ → Arr3 ℂ} {S S' : Arr2 ℂ}

/-- the builder used by a backend -/
noncomputable def Backend.builder : Backend → Builder
  | .looped _ _ => filters_directional
  | _ => filters_directional_vectorised

theorem Backend.builder_is (b : Backend) : IsBuilder b.builder := by
  cases b
  case looped => exact Or.inl rfl
  all_goals exact Or.inr (Or.inl rfl)

theorem Backend.filters_builder (b : Backend) (jm : JMax) (c : Cfg) :
    b.filters jm c = b.builder jm c.L c.N c.J_min c.lam c.spin 0 := by cases b <;> rfl

theorem exCfg1_works {b : Backend} (hb : Toy.IsToy b) : b.Works j_max {exCfg false 0 with J_min := 1} 2 := by
  have hv : ({exCfg false 0 with J_min := 1} : Cfg).Valid j_max 2 :=
    ⟨TopScale.of_j_max (by norm_num [exCfg]) (by norm_num [exCfg]) j_max_3_2, by norm_num [exCfg], by norm_num [exCfg],
      by norm_num, by norm_num⟩
  have hg := Toy.good hv rfl hb
  exact ⟨hv, hg.ready, hg.std, hg.exact, hg.trip⟩

theorem bl2_out {L spin : ℤ} {a : Arr2 ℂ} (h : BL2 L spin a) (l m : ℤ) (hl : ¬ (0 ≤ l ∧ l < L)) : co2 a l m = 0 :=
  a.junk _ _ fun hr => hl ⟨hr.1, by have := h.r; omega⟩

/-- two configurations that differ in `L` and `J_min` only -/
theorem Backend.filters_entry {c' : Cfg} (hv : c.Valid jm J) (hv' : c'.Valid jm' J') (hN : c'.N = c.N)
    (hlam : c'.lam = c.lam) (hs : |c'.spin| = |c.spin|) (h : b.filters jm c = .ok (psi, phi))
    (h' : b.filters jm' c' = .ok (psi', phi')) {l : ℤ} (hl0 : 0 ≤ l) (hl : l < c.L) (hl' : l < c'.L) :
    (∀ j n, c.J_min ≤ j → c'.J_min ≤ j → j ≤ J → j ≤ J' → psi.v j l (c.L - 1 + n) = psi'.v j l (c'.L - 1 + n)) ∧
    (c.J_min = c'.J_min → phi.v l = phi'.v l) := by
  rw [b.filters_builder] at h h'
  have ht := hv'.top
  rw [hlam] at ht
  rw [hN, hlam] at h'
  exact builder_entry b.builder_is hv.top ht hv.hN h h' hl0 hl hl' (by rw [hs])

/-- **C75** the lowest scale only affects which maps are returned: analyses with lowest scales `J_min` and `J_min'` return
the same wavelet map at every common scale. -/
theorem C75_maps {J_min' : ℤ} (hv : c.Valid jm J) (hv' : ({c with J_min := J_min'} : Cfg).Valid jm J)
    (hR : b.Ready jm c) (hR' : b.Ready jm {c with J_min := J_min'}) (hE : (b.engine c).Std c.reality)
    (h : b.analysis jm c f = .ok (w, s)) (h' : b.analysis jm {c with J_min := J_min'} f = .ok (w', s')) {j : ℤ}
    (h0 : c.J_min ≤ j) (h0' : J_min' ≤ j) (h1 : j ≤ J) :
    ∃ p, listGet w (j - c.J_min) = .ok p ∧ listGet w' (j - J_min') = .ok p := by
  have he : b.engine {c with J_min := J_min'} = b.engine c := by cases b <;> rfl
  obtain ⟨psi, phi, hflt⟩ := filters_exist hv b
  obtain ⟨psi', phi', hflt'⟩ := filters_exist hv' b
  rw [b.analysis_formula hv hR hE hflt] at h
  rw [b.analysis_formula hv' hR' (by rw [he]; exact hE) hflt', he] at h'
  obtain ⟨flm, hf, h⟩ := Py.bind_eq_ok.1 h
  obtain ⟨flm', hf', h'⟩ := Py.bind_eq_ok.1 h'
  beta_reduce at hf'
  rw [hf] at hf'; cases hf'
  obtain ⟨w1, hw1, h⟩ := Py.bind_eq_ok.1 h
  obtain ⟨s1, hs1, h⟩ := Py.bind_eq_ok.1 h
  cases h
  obtain ⟨w2, hw2, h'⟩ := Py.bind_eq_ok.1 h'
  obtain ⟨s2, hs2, h'⟩ := Py.bind_eq_ok.1 h'
  cases h'
  obtain ⟨p, hp, hp'⟩ := mapM_get hw1 h0 (show j < J + 1 by omega)
  obtain ⟨q, hq, hq'⟩ := mapM_get hw2 h0' (show j < J + 1 by omega)
  have e : wavCoeffs (c.Lj b.mr j) (c.Nj b.mr j) (fun l n => psi.v j l (c.L - 1 + n)) flm =
      wavCoeffs (c.Lj b.mr j) (c.Nj b.mr j) (fun l n => psi'.v j l (c.L - 1 + n)) flm := by
    refine Arr3.of_congr fun k l i _ _ hl _ _ _ => ?_
    beta_reduce
    by_cases hlL : l < c.L
    · rw [(b.filters_entry hv hv' rfl rfl rfl hflt hflt' hl hlL hlL).1 j _ h0 h0' h1 h1]
    · rw [bl2_out (hE.sph _ _ _ hf).1 l _ (by omega)]; simp
  beta_reduce at hp' hq'
  rw [e] at hp'
  have := hp'.symm.trans hq'
  cases this
  exact ⟨p, hp, hq⟩

/-- lowest scales 0 and 1: the maps of scale 2 are entries 2 and 1 of the two lists -/
example (b : Backend) (hb : Toy.IsToy b) : ∃ (f : Px) (w w' : List Px) (s s' p : Px),
    b.analysis j_max (exCfg false 0) f = .ok (w, s) ∧ b.analysis j_max {exCfg false 0 with J_min := 1} f = .ok (w', s') ∧
    listGet w 2 = .ok p ∧ listGet w' 1 = .ok p := by
  obtain ⟨f, w, s, W, S, hf, h, -⟩ := exRun hb false
  have hw := exCfg_works hb false 0
  have hw' := exCfg1_works hb
  have he : b.engine {exCfg false 0 with J_min := 1} = b.engine (exCfg false 0) := by cases b <;> rfl
  obtain ⟨w', s', -, -, h', -⟩ := analysis_coeffs_exist hw' (f := f) (flm := exFlm) (by rw [he]; exact hf)
  obtain ⟨p, hp, hp'⟩ := C75_maps hw.valid hw'.valid hw.ready hw'.ready hw.std h h' (j := 2) (by norm_num [exCfg])
    (by norm_num) (by norm_num)
  exact ⟨f, w, w', s, s', p, h, h', hp, hp'⟩

/-- **C75** the coarse part: the scaling map at `J_min'` carries the scaling map at `J_min` and the wavelet maps of the scales in
between, combined as in synthesis. -/
theorem C75_coarse {J_min' : ℤ} (hJ : c.J_min ≤ J_min') (hw : b.Works jm c J)
    (hw' : b.Works jm {c with J_min := J_min'} J) {k : Arr2 ℝ} (hk : k_lam jm c.L c.lam 300 = .ok k) (hno : NoOvershoot k)
    (hflt : b.filters jm c = .ok (psi, phi)) (hflt' : b.filters jm {c with J_min := J_min'} = .ok (psi', phi'))
    (h : b.analysis jm c f = .ok (w, s)) (hc : b.Coeffs c J w s W S)
    (h' : b.analysis jm {c with J_min := J_min'} f = .ok (w', s'))
    (hc' : b.Coeffs {c with J_min := J_min'} J w' s' W' S') (l m : ℤ) :
    ((Real.sqrt (4 * Real.pi / (2 * l + 1)) * phi'.v l : ℝ) : ℂ) * co2 S' l m =
      ((Real.sqrt (4 * Real.pi / (2 * l + 1)) * phi.v l : ℝ) : ℂ) * co2 S l m +
        ∑ j ∈ Finset.Ico c.J_min J_min', ∑ n ∈ Finset.Ioo (-c.L) c.L, psi.v j l (c.L - 1 + n) * co3 (W j) n l m := by
  have he : b.engine {c with J_min := J_min'} = b.engine c := by cases b <;> rfl
  obtain ⟨flm, hf, hbl, -⟩ := analysis_input hw h
  obtain ⟨a1, a2⟩ := analysis_co hw hflt h hc hf
  obtain ⟨a1', a2'⟩ := analysis_co hw' hflt' h' hc' (by rw [he]; exact hf)
  by_cases hl : 0 ≤ l ∧ l < c.L
  · have hB := b.builder_is
    rw [b.filters_builder] at hflt hflt'
    have e := C75_merge hB hw.valid.top hw.valid.hN hk hno hflt hflt' hJ hl.1 hl.2
    have hpos : (0 : ℝ) ≤ 4 * Real.pi / (2 * l + 1) := by
      have : (0 : ℝ) ≤ l := by exact_mod_cast hl.1
      have := Real.pi_pos
      positivity
    have es := Real.mul_self_sqrt hpos
    rw [a2, a2']
    have ew : ∀ j ∈ Finset.Ico c.J_min J_min', ∑ n ∈ Finset.Ioo (-c.L) c.L, psi.v j l (c.L - 1 + n) * co3 (W j) n l m =
        ((8 * Real.pi ^ 2 / (2 * l + 1) * ∑ n ∈ Finset.Ico 0 (2 * c.L - 1), ‖psi.v j l n‖ ^ 2 : ℝ) : ℂ) * co2 flm l m := by
      intro j hj
      rw [Finset.mem_Ico] at hj
      have hj1 : j ≤ J := by have := hw'.valid.h1; change J_min' < J at this; omega
      rw [sum_cols_Ioo (L := c.L) fun n => ‖psi.v j l n‖ ^ 2, Complex.ofReal_mul, Complex.ofReal_sum, Finset.mul_sum,
        Finset.sum_mul]
      refine Finset.sum_congr rfl fun n _ => ?_
      rw [a1 j hj.1 hj1]
      have e1 := Complex.mul_conj (psi.v j l (c.L - 1 + n))
      rw [Complex.normSq_eq_norm_sq] at e1
      linear_combination ((8 * Real.pi ^ 2 / (2 * l + 1) : ℝ) : ℂ) * co2 flm l m * e1
    rw [Finset.sum_congr rfl ew, ← Finset.sum_mul, ← Complex.ofReal_sum, ← Finset.mul_sum]
    have e2 : ((Real.sqrt (4 * Real.pi / (2 * l + 1)) * phi'.v l) * (Real.sqrt (4 * Real.pi / (2 * l + 1)) * phi'.v l) : ℝ) =
        (Real.sqrt (4 * Real.pi / (2 * l + 1)) * phi.v l) * (Real.sqrt (4 * Real.pi / (2 * l + 1)) * phi.v l) +
        8 * Real.pi ^ 2 / (2 * l + 1) *
          ∑ j ∈ Finset.Ico c.J_min J_min', ∑ n ∈ Finset.Ico 0 (2 * c.L - 1), ‖psi.v j l n‖ ^ 2 := by
      linear_combination e + (phi'.v l ^ 2 - phi.v l ^ 2) * es
    rw [← mul_assoc, ← mul_assoc, ← Complex.ofReal_mul, e2, ← Complex.ofReal_mul, ← add_mul, ← Complex.ofReal_add]
  · have hz : co2 flm l m = 0 := bl2_out hbl l m hl
    rw [a2, a2', hz, Finset.sum_eq_zero]
    · simp
    · intro j hj
      rw [Finset.mem_Ico] at hj
      have hj1 : j ≤ J := by have := hw'.valid.h1; change J_min' < J at this; omega
      exact Finset.sum_eq_zero fun n _ => by rw [a1 j hj.1 hj1, hz]; simp

/-- lowest scales 0 and 1 -/
example (b : Backend) (hb : Toy.IsToy b) : ∃ f w s W S w' s' W' S' psi phi psi' phi',
    b.analysis j_max (exCfg false 0) f = .ok (w, s) ∧ b.Coeffs (exCfg false 0) 2 w s W S ∧
    b.analysis j_max {exCfg false 0 with J_min := 1} f = .ok (w', s') ∧
    b.Coeffs {exCfg false 0 with J_min := 1} 2 w' s' W' S' ∧ b.filters j_max (exCfg false 0) = .ok (psi, phi) ∧
    b.filters j_max {exCfg false 0 with J_min := 1} = .ok (psi', phi') ∧
    ((Real.sqrt (4 * Real.pi / (2 * (1 : ℤ) + 1)) * phi'.v 1 : ℝ) : ℂ) * co2 S' 1 0 =
      ((Real.sqrt (4 * Real.pi / (2 * (1 : ℤ) + 1)) * phi.v 1 : ℝ) : ℂ) * co2 S 1 0 +
        ∑ j ∈ Finset.Ico (0 : ℤ) 1, ∑ n ∈ Finset.Ioo (-3) 3, psi.v j 1 (3 - 1 + n) * co3 (W j) n 1 0 := by
  obtain ⟨f, w, s, W, S, hf, h, hc⟩ := exRun hb false
  have hw := exCfg_works hb false 0
  have hw' := exCfg1_works hb
  have he : b.engine {exCfg false 0 with J_min := 1} = b.engine (exCfg false 0) := by cases b <;> rfl
  obtain ⟨w', s', W', S', h', hc'⟩ := analysis_coeffs_exist hw' (f := f) (flm := exFlm) (by rw [he]; exact hf)
  obtain ⟨psi, phi, hflt⟩ := filters_exist hw.valid b
  obtain ⟨psi', phi', hflt'⟩ := filters_exist hw'.valid b
  obtain ⟨k, hk, hno⟩ := noOvershoot_3_2
  exact ⟨f, w, s, W, S, w', s', W', S', psi, phi, psi', phi', h, hc, h', hc', hflt, hflt',
    C75_coarse (by norm_num [exCfg]) hw hw' hk hno hflt hflt' h hc h' hc' 1 0⟩

/-- **C76** zero padding: a signal of band-limit `c.L` analysed at a higher band-limit `L'` has the same wavelet coefficients
at the scales of both decompositions, none at the additional scales, and the same scaling coefficients. -/
theorem C76_padding {L' : ℤ} (hLL : c.L ≤ L') (hw : b.Works jm c J) (hw' : b.Works jm' {c with L := L'} J')
    (hf : (b.engine c).sphF f c.L = .ok flm) (hg : (b.engine {c with L := L'}).sphF g L' = .ok glm)
    (hfg : ∀ l m, co2 glm l m = co2 flm l m)
    (h : b.analysis jm c f = .ok (w, s)) (hc : b.Coeffs c J w s W S)
    (h' : b.analysis jm' {c with L := L'} g = .ok (w', s')) (hc' : b.Coeffs {c with L := L'} J' w' s' W' S') :
    (∀ j, c.J_min ≤ j → j ≤ J → j ≤ J' → ∀ n l m, co3 (W' j) n l m = co3 (W j) n l m) ∧
    (∀ j, J < j → j ≤ J' → ∀ n l m, co3 (W' j) n l m = 0) ∧
    ∀ l m, co2 S' l m = co2 S l m := by
  obtain ⟨psi, phi, hflt⟩ := filters_exist hw.valid b
  obtain ⟨psi', phi', hflt'⟩ := filters_exist hw'.valid b
  obtain ⟨a1, a2⟩ := analysis_co hw hflt h hc hf
  obtain ⟨a1', a2'⟩ := analysis_co hw' hflt' h' hc' hg
  have hz : ∀ l m, ¬ (0 ≤ l ∧ l < c.L) → co2 flm l m = 0 := fun l m hl =>
    bl2_out (hw.std.sph _ _ _ hf).1 l m hl
  have hE := fun {l : ℤ} => Backend.filters_entry (l := l) hw.valid hw'.valid rfl rfl rfl hflt hflt'
  refine ⟨fun j h0 h1 h1' n l m => ?_, fun j h0 h1 n l m => ?_, fun l m => ?_⟩
  · rw [a1' j h0 h1', a1 j h0 h1, hfg]
    by_cases hl : 0 ≤ l ∧ l < c.L
    · rw [(hE hl.1 hl.2 (by show l < L'; omega)).1 j n h0 h0 h1 h1']
    · rw [hz l m hl]; simp
  · have hJm : c.J_min ≤ j := by have := hw.valid.h1; omega
    rw [a1' j hJm h1, hfg]
    by_cases hl : 0 ≤ l ∧ l < c.L
    · have : psi'.v j l (L' - 1 + n) = 0 := by
        by_contra hne
        have h3 := ((filters_support hw'.valid hflt').1 j l _ hne).1
        have h4 : c.lam ^ J ≤ c.lam ^ (j - 1) := zpow_le_zpow_right₀ hw.valid.top.hlam.le (by omega)
        have h5 : (l : ℝ) + 1 ≤ c.L := by exact_mod_cast hl.2
        have h6 := hw.valid.top.hLJ
        change c.lam ^ (j - 1) < (l : ℝ) at h3
        linarith
      rw [this]; simp
    · rw [hz l m hl]; simp
  · rw [a2', a2, hfg]
    by_cases hl : 0 ≤ l ∧ l < c.L
    · rw [(hE hl.1 hl.2 (by show l < L'; omega)).2 rfl]
    · rw [hz l m hl]; simp

theorem exCfg8_works {b : Backend} (hb : Toy.IsToy b) : b.Works j_max {exCfg false 0 with L := 8} 3 := by
  have hv : ({exCfg false 0 with L := 8} : Cfg).Valid j_max 3 :=
    ⟨TopScale.of_j_max (by norm_num) (by norm_num [exCfg]) j_max_8_2, by norm_num [exCfg], by norm_num [exCfg],
      by norm_num [exCfg], by norm_num [exCfg]⟩
  have hg := Toy.good hv rfl hb
  exact ⟨hv, hg.ready, hg.std, hg.exact, hg.trip⟩

/-- a signal with a coefficient at `l = 1`, of band-limit 3, analysed at band-limits 3 and 8 -/
example (b : Backend) (hb : Toy.IsToy b) : ∃ (f g : Px) (flm : Arr2 ℂ) (w w' : List Px) (s s' : Px) (W W' : ℤ → Arr3 ℂ)
    (S S' : Arr2 ℂ), (b.engine (exCfg false 0)).sphF f 3 = .ok flm ∧ co2 flm 1 0 = 1 ∧
    b.analysis j_max (exCfg false 0) f = .ok (w, s) ∧ b.Coeffs (exCfg false 0) 2 w s W S ∧
    b.analysis j_max {exCfg false 0 with L := 8} g = .ok (w', s') ∧ b.Coeffs {exCfg false 0 with L := 8} 3 w' s' W' S' ∧
    (∀ n l m, co3 (W' 1) n l m = co3 (W 1) n l m) ∧ (∀ n l m, co3 (W' 3) n l m = 0) ∧ ∀ l m, co2 S' l m = co2 S l m := by
  obtain ⟨f, w, s, W, S, hf, h, hc⟩ := exRun hb false
  have hw := exCfg_works hb false 0
  have hw' := exCfg8_works hb
  have hco : ∀ l m, co2 (Arr2.of 8 15 fun l i => if l = 1 ∧ i = 7 then 1 else 0) l m = if l = 1 ∧ m = 0 then 1 else 0 := by
    intro l m
    rw [co2_of]
    split_ifs <;> first | rfl | omega
  obtain ⟨g, -, hg⟩ := hw'.exact.sph 8 (Arr2.of 8 15 fun l i => if l = 1 ∧ i = 7 then 1 else 0) (by norm_num)
    ⟨rfl, rfl, fun l m hl => by
      change l < |m| ∨ l < |0| at hl
      rw [hco, if_neg]; rintro ⟨rfl, rfl⟩; norm_num at hl⟩ (fun h => by cases h)
  obtain ⟨w', s', W', S', h', hc'⟩ := analysis_coeffs_exist hw' hg
  obtain ⟨k1, k2, k3⟩ := C76_padding (by norm_num [exCfg]) hw hw' hf hg (fun l m => by
    rw [hco]; unfold exFlm; rw [co2_of]; split_ifs <;> first | rfl | omega) h hc h' hc'
  exact ⟨f, g, exFlm, w, w', s, s', W, W', S, S', hf, exFlm_co, h, hc, h', hc',
    k1 1 (by norm_num [exCfg]) (by norm_num) (by norm_num), k2 3 (by norm_num) (by norm_num), k3⟩

/-- **C77** spin: the conjugate of a signal of spin `s` has spin `-s` and the coefficients `(-1)^(s+m) conj(f_l,-m)`.  Its
wavelet coefficients are those of the conjugates of the wavelet maps, times `(-1)^s`; its scaling map is the conjugate of the scaling
map. -/
theorem C77_conjugate (hw : b.Works jm c J) (hw' : b.Works jm {c with spin := -c.spin} J)
    (hf : (b.engine c).sphF f c.L = .ok flm) (hg : (b.engine {c with spin := -c.spin}).sphF g c.L = .ok glm)
    (hfg : ∀ l m, co2 glm l m = (-1) ^ (c.spin + m) * (starRingEnd ℂ) (co2 flm l (-m)))
    (h : b.analysis jm c f = .ok (w, s)) (hc : b.Coeffs c J w s W S)
    (h' : b.analysis jm {c with spin := -c.spin} g = .ok (w', s')) (hc' : b.Coeffs {c with spin := -c.spin} J w' s' W' S') :
    (∀ j, c.J_min ≤ j → j ≤ J → ∀ n l m,
      co3 (W' j) n l m = (-1) ^ c.spin * ((-1) ^ (m + n) * (starRingEnd ℂ) (co3 (W j) (-n) l (-m)))) ∧
    ∀ l m, co2 S' l m = (-1) ^ (c.spin + m) * (starRingEnd ℂ) (co2 S l (-m)) := by
  obtain ⟨psi, phi, hflt⟩ := filters_exist hw.valid b
  have hflt' : b.filters jm {c with spin := -c.spin} = .ok (psi, phi) := by
    rw [b.filters_builder] at hflt ⊢
    exact (C74_spin_sign b.builder_is _ _ _ _ _ _ _).trans hflt
  obtain ⟨a1, a2⟩ := analysis_co hw hflt h hc hf
  obtain ⟨a1', a2'⟩ := analysis_co hw' hflt' h' hc' hg
  have hsym := dir_fltSym hw.valid.top hw.valid.hN (filters_built hflt)
  refine ⟨fun j h0 h1 n l m => ?_, fun l m => ?_⟩
  · rw [a1' j h0 h1, a1 j h0 h1, hfg]
    have e := hsym j l n
    rw [show c.L - 1 + -n = c.L - 1 - n by ring, e]
    simp only [map_mul, Complex.conj_conj, Complex.conj_ofReal]
    rw [zpow_add₀ (by norm_num), zpow_add₀ (by norm_num)]
    linear_combination (-(((8 * Real.pi ^ 2 / (2 * l + 1) : ℝ) : ℂ) * (-1) ^ c.spin * (-1) ^ m *
      (starRingEnd ℂ) (co2 flm l (-m)) * (starRingEnd ℂ) (psi.v j l (c.L - 1 + n)))) * Toy.neg_one_zpow_mul_self n
  · rw [a2', a2, hfg]
    simp only [map_mul, Complex.conj_ofReal]
    ring

/-- a signal of spin 1 with a coefficient at `l = 1`, and its conjugate of spin -1 -/
example (b : Backend) (hb : Toy.IsToy b) : ∃ (f g : Px) (flm : Arr2 ℂ) (w w' : List Px) (s s' : Px) (W W' : ℤ → Arr3 ℂ)
    (S S' : Arr2 ℂ), (b.engine (exCfg false 1)).sphF f 3 = .ok flm ∧ co2 flm 1 0 = 1 ∧
    b.analysis j_max (exCfg false 1) f = .ok (w, s) ∧ b.Coeffs (exCfg false 1) 2 w s W S ∧
    b.analysis j_max (exCfg false (-1)) g = .ok (w', s') ∧ b.Coeffs (exCfg false (-1)) 2 w' s' W' S' ∧
    ∀ n l m, co3 (W' 1) n l m = (-1) ^ (1 : ℤ) * ((-1) ^ (m + n) * (starRingEnd ℂ) (co3 (W 1) (-n) l (-m))) := by
  have hw := exCfg_works hb false 1
  have hw' := exCfg_works hb false (-1)
  have hz : ∀ l m : ℤ, l < |m| ∨ l < 1 → ¬ (l = 1 ∧ m = 0) := by
    rintro l m h ⟨rfl, rfl⟩
    norm_num at h
  have hco : ∀ l m, co2 exFlm l m = if l = 1 ∧ m = 0 then 1 else 0 := by
    intro l m
    unfold exFlm
    rw [co2_of]
    split_ifs <;> first | rfl | omega
  have hco' : ∀ l m, co2 (Arr2.of 3 5 fun l i => if l = 1 ∧ i = 2 then -1 else 0) l m = if l = 1 ∧ m = 0 then -1 else 0 := by
    intro l m
    rw [co2_of]
    split_ifs <;> first | rfl | omega
  obtain ⟨f, -, hf⟩ := hw.exact.sph 3 exFlm (by norm_num)
    ⟨rfl, rfl, fun l m hl => by
      change l < |m| ∨ l < |1| at hl
      rw [hco, if_neg (hz l m (by simpa using hl))]⟩ (fun h => by cases h)
  obtain ⟨g, -, hg⟩ := hw'.exact.sph 3 (Arr2.of 3 5 fun l i => if l = 1 ∧ i = 2 then -1 else 0) (by norm_num)
    ⟨rfl, rfl, fun l m hl => by
      change l < |m| ∨ l < |-1| at hl
      rw [hco', if_neg (hz l m (by simpa using hl))]⟩ (fun h => by cases h)
  obtain ⟨w, s, W, S, h, hc⟩ := analysis_coeffs_exist hw hf
  obtain ⟨w', s', W', S', h', hc'⟩ := analysis_coeffs_exist hw' hg
  have key := (C77_conjugate hw hw' hf hg (fun l m => by
    rw [hco', hco]
    by_cases e : l = 1 ∧ m = 0
    · obtain ⟨rfl, rfl⟩ := e
      norm_num [exCfg]
    · rw [if_neg e, if_neg (by omega)]; simp) h hc h' hc').1
  exact ⟨f, g, exFlm, w, w', s, s', W, W', S, S', hf, exFlm_co, h, hc, h', hc', key 1 (by norm_num [exCfg]) (by norm_num)⟩

end

section
variable {jm : JMax} {c : Cfg} {J : ℤ} {E : BaseFFT} {mr : Bool} {f g : Px} {w w' v : List Px} {s s' t : Px}

/-- **C78** scattering is positively homogeneous: multiplying the signal by a number multiplies the moduli by its absolute
value.  In particular a change of sign, and a change of phase of a complex signal, change nothing. -/
theorem C78_homogeneous (hv : c.Valid jm J) (hR : (Backend.base E mr).Ready jm c) (hE : (baseEngine E c).Std c.reality)
    (hL : (baseEngine E c).Linear c.reality) {a : ℂ} (ha : c.reality = true → a.im = 0)
    (h : Base.analysis jm E f c.L c.N c.J_min c.lam c.spin 0 c.sampling c.nside c.reality mr true = .ok (w, s)) :
    Base.analysis jm E (f.lin a 0 f) c.L c.N c.J_min c.lam c.spin 0 c.sampling c.nside c.reality mr true =
      .ok (w.map fun p => ⟨p.shape, fun x => ((‖a‖ : ℝ) : ℂ) * p.v x⟩, ⟨s.shape, fun x => a * s.v x⟩) := by
  rw [(C41_scattering hv hR hE _).1] at h ⊢
  obtain ⟨⟨w0, s0⟩, h0, h⟩ := Py.bind_eq_ok.1 h
  cases h
  have key := C27_analysis_linear (b := .base E mr) hv hR hE hL (a := a) (d := 0) (fun hr => ⟨ha hr, rfl⟩) rfl h0 h0
  rw [show Base.analysis jm E (f.lin a 0 f) c.L c.N c.J_min c.lam c.spin 0 c.sampling c.nside c.reality mr false = _ from key,
    Py.bind_ok]
  have e : ∀ p : Px, (p.lin a 0 p).abs = ⟨p.abs.shape, fun x => ((‖a‖ : ℝ) : ℂ) * p.abs.v x⟩ := fun p => by
    unfold Px.lin Px.abs
    simp
  have e' : s0.lin a 0 s0 = ⟨s0.shape, fun x => a * s0.v x⟩ := by unfold Px.lin; simp
  rw [e', List.zipWith_self, List.map_map, List.map_map]
  simp only [Function.comp_def, e]

/-- **C78** scattering does not increase differences: at every pixel the moduli of two signals differ by at most the modulus
of the wavelet map of the difference of the signals. -/
theorem C78_contraction (hv : c.Valid jm J) (hR : (Backend.base E mr).Ready jm c) (hE : (baseEngine E c).Std c.reality)
    (hL : (baseEngine E c).Linear c.reality) (hfg : f.shape = g.shape)
    (h : Base.analysis jm E f c.L c.N c.J_min c.lam c.spin 0 c.sampling c.nside c.reality mr true = .ok (w, s))
    (h' : Base.analysis jm E g c.L c.N c.J_min c.lam c.spin 0 c.sampling c.nside c.reality mr true = .ok (w', s')) :
    ∃ v t, Base.analysis jm E (f.lin 1 (-1) g) c.L c.N c.J_min c.lam c.spin 0 c.sampling c.nside c.reality mr false =
        .ok (v, t) ∧ v.length = min w.length w'.length ∧
      (∀ (i : ℕ) p p' q, w[i]? = some p → w'[i]? = some p' → v[i]? = some q → ∀ x, ‖p.v x - p'.v x‖ ≤ ‖q.v x‖) ∧
      ∀ x, s.v x - s'.v x = t.v x := by
  rw [(C41_scattering hv hR hE _).1] at h h'
  obtain ⟨⟨w0, s0⟩, h0, h⟩ := Py.bind_eq_ok.1 h
  cases h
  obtain ⟨⟨w1, s1⟩, h1, h'⟩ := Py.bind_eq_ok.1 h'
  cases h'
  have key := C27_analysis_linear (b := .base E mr) hv hR hE hL (a := 1) (d := -1) (fun _ => by simp) hfg h0 h1
  refine ⟨_, _, key, by simp, fun i p p' q hp hp' hq x => ?_, fun x => ?_⟩
  · rw [List.getElem?_map] at hp hp'
    rw [List.getElem?_zipWith] at hq
    rcases e0 : w0[i]? with _ | p0
    · rw [e0] at hp; cases hp
    rcases e1 : w1[i]? with _ | p1
    · rw [e1] at hp'; cases hp'
    rw [e0] at hp hq; rw [e1] at hp' hq
    cases hp; cases hp'; cases hq
    simp only [Px.abs, Px.lin, one_mul, neg_mul, ← sub_eq_add_neg, ← Complex.ofReal_sub, Complex.norm_real, Real.norm_eq_abs]
    exact abs_norm_sub_norm_le _ _
  · simp [Px.lin, sub_eq_add_neg]

example (a : ℂ) : ∃ (f : Px) (w : List Px) (s : Px), f.v [0, 0] ≠ 0 ∧
    Base.analysis j_max Toy.base f 3 2 0 2 0 0 "mw" none false true true = .ok (w, s) ∧
    Base.analysis j_max Toy.base (f.lin a 0 f) 3 2 0 2 0 0 "mw" none false true true =
      .ok (w.map fun p => ⟨p.shape, fun x => ((‖a‖ : ℝ) : ℂ) * p.v x⟩, ⟨s.shape, fun x => a * s.v x⟩) := by
  have hb : Toy.IsToy (.base Toy.base true) := Or.inl ⟨true, rfl⟩
  have hw := exCfg_works hb false 0
  obtain ⟨w0, s0, -, -, h0, -⟩ := analysis_coeffs_exist hw (f := ⟨[3, 5], fun _ => 1⟩) rfl
  have h : Base.analysis j_max Toy.base ⟨[3, 5], fun _ => 1⟩ 3 2 0 2 0 0 "mw" none false true true =
      .ok (w0.map Px.abs, s0) := by
    refine ((C41_scattering hw.valid hw.ready hw.std _).1).trans ?_
    rw [show Base.analysis _ _ _ _ _ _ _ _ _ _ _ _ _ false = _ from h0]; rfl
  exact ⟨⟨[3, 5], fun _ => 1⟩, _, _, by norm_num, h,
    C78_homogeneous hw.valid hw.ready hw.std (Toy.linear hb hw.ready) (fun h => by cases h) h⟩

end

end S2wav
