import Verif.Sphere.Harmonics
import Verif.Sphere.Legendre
import Verif.Lemmas.Linear

/-! # An s2fft built from the definitions

Inverse transforms evaluate the series of `Harmonics.lean` on a grid of samples, forward transforms recover the
coefficients.  The grids are those of the samplings `mw`, `mwss`, `dh` and `gl` of s2fft. -/

namespace S2wav.Sphere
open Classical

/-! ## Samplings -/

/-- the grids of s2fft's samplings, numbered as in the SSHT library: McEwen-Wiaux, its symmetric variant, Driscoll-Healy,
Gauss-Legendre -/
noncomputable def gridIx (k : ℕ) (L : ℤ) : Py Grid :=
  match k with
  | 0 => .ok ⟨L, fun t => (2 * t + 1) * Real.pi / (2 * L - 1), 2 * L - 1⟩
  | 1 => .ok ⟨L + 1, fun t => 2 * t * Real.pi / (2 * L), 2 * L⟩
  | 2 => .ok ⟨2 * L, fun t => (2 * t + 1) * Real.pi / (4 * L), 2 * L - 1⟩
  | 3 => .ok ⟨L, glθ L, 2 * L - 1⟩
  | _ => .error .valueError

/-- the grid of a sampling given by name -/
noncomputable def gridOf (sampling : String) (L : ℤ) : Py Grid := do
  let k ← C.sshtIndex sampling.toLower
  gridIx k L

theorem enough_of {g : Grid} {L lo hi : ℤ} {c e : ℝ} (hc : 0 < c) (hθ : ∀ t, g.θ t = c * (t + e))
    (h0 : ∀ t ∈ Finset.Ico 0 g.nθ, 0 ≤ g.θ t) (h1 : ∀ t ∈ Finset.Ico 0 g.nθ, g.θ t ≤ Real.pi) (hall : L ≤ g.nθ) (hphi : 2 * L - 1 ≤ g.nφ)
    (hlo : 0 ≤ lo) (hhi : hi ≤ g.nθ) (hin : L - 1 ≤ hi - lo)
    (h2 : ∀ t ∈ Finset.Ico lo hi, 0 < g.θ t ∧ g.θ t < Real.pi) : g.Enough L := by
  refine ⟨fun s _ t _ h => ?_, h0, h1, hall, ?_, hphi⟩
  · rw [hθ, hθ] at h
    have := mul_left_cancel₀ hc.ne' h
    exact_mod_cast (add_right_cancel this)
  · have hs : Finset.Ico lo hi ⊆ (Finset.Ico 0 g.nθ).filter fun t => 0 < g.θ t ∧ g.θ t < Real.pi := by
      intro t ht
      have := h2 t ht
      rw [Finset.mem_filter]
      rw [Finset.mem_Ico] at ht ⊢
      exact ⟨by omega, this⟩
    have := Finset.card_le_card hs
    rw [Int.card_Ico] at this
    omega

theorem gridIx_enough {k : ℕ} {L : ℤ} {g : Grid} (hL : 1 ≤ L) (h : gridIx k L = .ok g) : g.Enough L := by
  have hpi := Real.pi_pos
  have hLR : (1 : ℝ) ≤ L := by exact_mod_cast hL
  match k, h with
  | 0, h =>
    cases h
    have hd : (0 : ℝ) < 2 * L - 1 := by linarith
    refine enough_of (c := 2 * Real.pi / (2 * L - 1)) (e := 1 / 2) (lo := 0) (hi := L - 1) (by positivity)
      (fun t => by field_simp) ?_ ?_ le_rfl le_rfl le_rfl (by dsimp only; omega) (by omega) ?_
    · intro t ht
      have : (0 : ℝ) ≤ t := by exact_mod_cast (Finset.mem_Ico.1 ht).1
      positivity
    · intro t ht
      have : (t : ℝ) + 1 ≤ L := by exact_mod_cast (Finset.mem_Ico.1 ht).2
      rw [div_le_iff₀ hd]
      nlinarith
    · intro t ht
      have h0 : (0 : ℝ) ≤ t := by exact_mod_cast (Finset.mem_Ico.1 ht).1
      have h1 : (t : ℝ) + 1 ≤ L - 1 := by exact_mod_cast (Finset.mem_Ico.1 ht).2
      refine ⟨by positivity, ?_⟩
      rw [div_lt_iff₀ hd]
      nlinarith
  | 1, h =>
    cases h
    have hd : (0 : ℝ) < 2 * L := by linarith
    refine enough_of (c := Real.pi / L) (e := 0) (lo := 1) (hi := L) (by positivity)
      (fun t => by field_simp; ring) ?_ ?_ (by dsimp only; omega) (by dsimp only; omega) (by omega) (by dsimp only; omega) (by omega) ?_
    · intro t ht
      have : (0 : ℝ) ≤ t := by exact_mod_cast (Finset.mem_Ico.1 ht).1
      positivity
    · intro t ht
      have : (t : ℝ) + 1 ≤ L + 1 := by exact_mod_cast (Finset.mem_Ico.1 ht).2
      rw [div_le_iff₀ hd]
      nlinarith
    · intro t ht
      have h0 : (1 : ℝ) ≤ t := by exact_mod_cast (Finset.mem_Ico.1 ht).1
      have h1 : (t : ℝ) + 1 ≤ L := by exact_mod_cast (Finset.mem_Ico.1 ht).2
      refine ⟨by positivity, ?_⟩
      rw [div_lt_iff₀ hd]
      nlinarith
  | 2, h =>
    cases h
    have hd : (0 : ℝ) < 4 * L := by linarith
    have key : ∀ t ∈ Finset.Ico 0 (2 * L), 0 < (2 * (t : ℝ) + 1) * Real.pi / (4 * L) ∧ (2 * (t : ℝ) + 1) * Real.pi / (4 * L) < Real.pi := by
      intro t ht
      have h0 : (0 : ℝ) ≤ t := by exact_mod_cast (Finset.mem_Ico.1 ht).1
      have h1 : (t : ℝ) + 1 ≤ 2 * L := by exact_mod_cast (Finset.mem_Ico.1 ht).2
      refine ⟨by positivity, ?_⟩
      rw [div_lt_iff₀ hd]
      nlinarith
    exact enough_of (c := Real.pi / (2 * L)) (e := 1 / 2) (lo := 0) (hi := 2 * L) (by positivity)
      (fun t => by field_simp; ring) (fun t ht => (key t ht).1.le) (fun t ht => (key t ht).2.le) (by dsimp only; omega) le_rfl le_rfl le_rfl
      (by omega) key
  | 3, h =>
    cases h
    have key : ∀ t ∈ Finset.Ico 0 L, 0 < glθ L t ∧ glθ L t < Real.pi := fun t ht => glθ_mem (Finset.mem_Ico.1 ht).1 (Finset.mem_Ico.1 ht).2
    refine ⟨fun s hs t ht h => ?_, fun t ht => (key t ht).1.le, fun t ht => (key t ht).2.le, le_rfl, ?_, le_rfl⟩
    · rw [Finset.mem_Ico] at hs ht
      rcases lt_trichotomy s t with hlt | hlt | hlt
      · exact absurd h (glθ_lt hs.1 hlt ht.2).ne
      · exact hlt
      · exact absurd h (glθ_lt ht.1 hlt hs.2).ne'
    · dsimp only
      rw [Finset.filter_true_of_mem key, Int.card_Ico]
      omega
  | (k + 4), h => cases h

/-! ## Transforms on one grid -/

/-- the coefficients a real transform works with: those of orders `m ≥ 0`, extended by symmetry -/
noncomputable def herm (a : ℤ → ℤ → ℂ) (l m : ℤ) : ℂ :=
  if 0 < m then a l m else if m = 0 then (((a l 0).re : ℝ) : ℂ) else (-1) ^ m * (starRingEnd ℂ) (a l (-m))

theorem herm_sym (a : ℤ → ℤ → ℂ) (l m : ℤ) : herm a l (-m) = (-1) ^ m * (starRingEnd ℂ) (herm a l m) := by
  unfold herm
  rcases lt_trichotomy m 0 with h | h | h
  · rw [if_pos (by omega), if_neg (by omega), if_neg (by omega), map_mul, Toy.conj_neg_one_zpow, Complex.conj_conj, ← mul_assoc,
      Toy.neg_one_zpow_mul_self, one_mul]
  · subst h; simp
  · rw [if_neg (by omega), if_neg (by omega), if_pos h, Toy.neg_one_zpow_neg, neg_neg]

theorem herm_of_sym {a : ℤ → ℤ → ℂ} (ha : ∀ l m, a l (-m) = (-1) ^ m * (starRingEnd ℂ) (a l m)) : herm a = a := by
  funext l m
  unfold herm
  split_ifs with h1 h2
  · rfl
  · subst h2
    have := ha l 0
    simp only [neg_zero, zpow_zero, one_mul] at this
    exact (Complex.conj_eq_iff_re.1 this.symm)
  · have := ha l (-m)
    rw [neg_neg, Toy.neg_one_zpow_neg] at this
    exact this.symm

/-- the coefficients read by the inverse transform -/
noncomputable def input (reality : Bool) (a : Arr2 ℂ) : ℤ → ℤ → ℂ := if reality then herm (co2 a) else co2 a

/-- inverse spherical harmonic transform of spin `s` -/
noncomputable def sphInv (g : Grid) (s : ℤ) (reality : Bool) (a : Arr2 ℂ) (L : ℤ) : Px :=
  ⟨[g.nθ, g.nφ], fun idx => match idx with
    | [t, x] => series s L (input reality a) (g.θ t) (node g.nφ x)
    | _ => 0⟩

/-- the coefficients returned by the forward transform -/
noncomputable def output (g : Grid) (s : ℤ) (reality : Bool) (p : Px) (L : ℤ) : ℤ → ℤ → ℂ :=
  if reality then herm (scoef g s L fun t x => (((p.v [t, x]).re : ℝ) : ℂ)) else scoef g s L fun t x => p.v [t, x]

/-- forward spherical harmonic transform of spin `s`; the image must have the shape of the grid -/
noncomputable def sphFwd (g : Grid) (s : ℤ) (reality : Bool) (p : Px) (L : ℤ) : Py (Arr2 ℂ) :=
  if p.shape = [g.nθ, g.nφ] then .ok (Arr2.of L (2 * L - 1) fun l i =>
    if max |i - (L - 1)| |s| ≤ l then output g s reality p L l (i - (L - 1)) else 0)
  else .error .valueError

/-- inverse Wigner transform -/
noncomputable def wigInv (g : Grid) (t : Arr3 ℂ) (L N : ℤ) : Px :=
  ⟨[2 * N - 1, g.nθ, g.nφ], fun idx => match idx with
    | [y, i, x] => wseries L N (co3 t) (node g.nφ x) (g.θ i) (node (2 * N - 1) y)
    | _ => 0⟩

/-- forward Wigner transform -/
noncomputable def wigFwd (g : Grid) (p : Px) (L N : ℤ) : Py (Arr3 ℂ) :=
  if p.shape = [2 * N - 1, g.nθ, g.nφ] then .ok (Arr3.of (2 * N - 1) L (2 * L - 1) fun k l i =>
    if max |i - (L - 1)| |k - (N - 1)| ≤ l then wcoef g L N (fun y t x => p.v [y, t, x]) (k - (N - 1)) l (i - (L - 1)) else 0)
  else .error .valueError

variable {g : Grid} {s L N : ℤ} {reality : Bool}

theorem sphFwd_co {p : Px} {a : Arr2 ℂ} (h : sphFwd g s reality p L = .ok a) (l m : ℤ) :
    co2 a l m = if l < L ∧ max |m| |s| ≤ l then output g s reality p L l m else 0 := by
  unfold sphFwd at h
  split_ifs at h
  cases h
  rw [co2_of]
  have e : L - 1 + m - (L - 1) = m := by ring
  rw [e]
  by_cases hl : l < L ∧ max |m| |s| ≤ l
  · have h1 := abs_le.1 ((le_max_left |m| |s|).trans hl.2)
    rw [if_pos hl, if_pos (by omega), if_pos hl.2]
  · rw [if_neg hl]
    split_ifs with h1 h2
    · exact absurd ⟨h1.2.1, h2⟩ hl
    · rfl
    · rfl

theorem sphFwd_shape {p : Px} {a : Arr2 ℂ} (h : sphFwd g s reality p L = .ok a) :
    p.shape = [g.nθ, g.nφ] ∧ a.r = L ∧ a.c = 2 * L - 1 := by
  unfold sphFwd at h
  split_ifs at h with hs
  cases h
  exact ⟨hs, rfl, rfl⟩

theorem sphFwd_bl {p : Px} {a : Arr2 ℂ} (h : sphFwd g s reality p L = .ok a) : BL2 L s a := by
  refine ⟨(sphFwd_shape h).2.1, (sphFwd_shape h).2.2, fun l m hl => ?_⟩
  rw [sphFwd_co h, if_neg]
  have := le_max_left |m| |s|
  have := le_max_right |m| |s|
  omega

theorem sphFwd_herm {p : Px} {a : Arr2 ℂ} (h : sphFwd g s true p L = .ok a) : Herm2 a := by
  intro l m
  rw [sphFwd_co h, sphFwd_co h, abs_neg]
  split_ifs
  · exact herm_sym _ _ _
  · simp

theorem series_congr {a a' : ℤ → ℤ → ℂ} (h : ∀ l m, a l m = a' l m) (θ φ : ℝ) : series s L a θ φ = series s L a' θ φ := by
  have : a = a' := funext fun l => funext fun m => h l m
  rw [this]

theorem series_input_real (a : Arr2 ℂ) (θ φ : ℝ) :
    (((series 0 L (input true a) θ φ).re : ℝ) : ℂ) = series 0 L (input true a) θ φ :=
  Complex.conj_eq_iff_re.1 (series_real (fun l m => herm_sym _ l m) θ φ)

/-- recovery of the coefficients from any image that agrees with the inverse transform on the grid -/
theorem sphFwd_of {p : Px} {a : Arr2 ℂ} (hg : g.Enough L) (hs : p.shape = [g.nθ, g.nφ])
    (hp : ∀ t ∈ Finset.Ico 0 g.nθ, ∀ x ∈ Finset.Ico 0 g.nφ, p.v [t, x] = series s L (input reality a) (g.θ t) (node g.nφ x))
    (ha : BL2 L s a) (hh : reality = true → s = 0 ∧ Herm2 a) : sphFwd g s reality p L = .ok a := by
  have hok : sphFwd g s reality p L = .ok (Arr2.of L (2 * L - 1) fun l i =>
    if max |i - (L - 1)| |s| ≤ l then output g s reality p L l (i - (L - 1)) else 0) := if_pos hs
  rw [hok]
  refine congrArg Except.ok (Arr2.ext_co ha.r.symm ha.c.symm fun l m => ?_)
  rw [sphFwd_co hok]
  split_ifs with h
  · unfold output
    cases hr : reality
    · simp only [Bool.false_eq_true, if_false]
      rw [scoef_eq hg h.2 h.1 hp, input, hr]; simp
    · obtain ⟨rfl, hH⟩ := hh hr
      simp only [if_true]
      have key : ∀ l m, l < L → max |m| |0| ≤ l → scoef g 0 L (fun t x => (((p.v [t, x]).re : ℝ) : ℂ)) l m = co2 a l m := by
        intro l m h1 h2
        rw [scoef_eq (a := input reality a) hg h2 h1]
        · rw [hr, input, if_pos rfl, herm_of_sym hH]
        · intro t ht x hx
          rw [hp t ht x hx, hr]; exact series_input_real a _ _
      unfold herm
      rcases lt_trichotomy m 0 with hm | hm | hm
      · rw [if_neg (by omega), if_neg (by omega), key l (-m) h.1 (by rw [abs_neg]; exact h.2)]
        have := hH l (-m)
        rw [neg_neg, Toy.neg_one_zpow_neg] at this
        exact this.symm
      · subst hm
        rw [if_neg (by omega), if_pos rfl, key l 0 h.1 h.2]
        have := hH l 0
        simp only [neg_zero, zpow_zero, one_mul] at this
        exact Complex.conj_eq_iff_re.1 this.symm
      · rw [if_pos hm, key l m h.1 h.2]
  · by_cases hl : l < |m| ∨ l < |s|
    · exact (ha.zero l m hl).symm
    · refine (a.junk _ _ ?_).symm
      rw [ha.r]
      have : max |m| |s| ≤ l := max_le (by omega) (by omega)
      omega

theorem sph_exact {a : Arr2 ℂ} (hg : g.Enough L) (ha : BL2 L s a) (hh : reality = true → s = 0 ∧ Herm2 a) :
    sphFwd g s reality (sphInv g s reality a L) L = .ok a :=
  sphFwd_of hg rfl (fun _ _ _ _ => rfl) ha hh

theorem sphInv_re (a : Arr2 ℂ) : (sphInv g 0 true a L).re = sphInv g 0 true a L := by
  unfold Px.re sphInv
  congr 1
  funext idx
  dsimp only
  split
  · exact series_input_real a _ _
  · simp

theorem wigFwd_co {p : Px} {a : Arr3 ℂ} (h : wigFwd g p L N = .ok a) (n l m : ℤ) :
    co3 a n l m = if |n| < N ∧ l < L ∧ max |m| |n| ≤ l then wcoef g L N (fun y t x => p.v [y, t, x]) n l m else 0 := by
  unfold wigFwd at h
  split_ifs at h
  cases h
  rw [co3_of]
  have e : L - 1 + m - (L - 1) = m := by ring
  have e' : N - 1 + n - (N - 1) = n := by ring
  rw [e, e']
  by_cases hl : |n| < N ∧ l < L ∧ max |m| |n| ≤ l
  · have h1 := abs_le.1 ((le_max_left |m| |n|).trans hl.2.2)
    have h2 := abs_lt.1 hl.1
    rw [if_pos hl, if_pos (by omega), if_pos hl.2.2]
  · rw [if_neg hl]
    split_ifs with h1 h2
    · exact absurd ⟨by rw [abs_lt]; omega, h1.2.2.2.1, h2⟩ hl
    · rfl
    · rfl

theorem wigFwd_shape {p : Px} {a : Arr3 ℂ} (h : wigFwd g p L N = .ok a) :
    p.shape = [2 * N - 1, g.nθ, g.nφ] ∧ a.d = 2 * N - 1 ∧ a.r = L ∧ a.c = 2 * L - 1 := by
  unfold wigFwd at h
  split_ifs at h with hs
  cases h
  exact ⟨hs, rfl, rfl, rfl⟩

theorem wigFwd_bl {p : Px} {a : Arr3 ℂ} (h : wigFwd g p L N = .ok a) : BL3 L N 0 a := by
  obtain ⟨-, h1, h2, h3⟩ := wigFwd_shape h
  refine ⟨h1, h2, h3, fun n l m hl => ?_⟩
  rw [wigFwd_co h, if_neg]
  have := le_max_left |m| |n|
  have := le_max_right |m| |n|
  have := abs_nonneg m
  omega

theorem wig_exact {L0 : ℤ} {t : Arr3 ℂ} (hg : g.Enough L) (ht : BL3 L N L0 t) : wigFwd g (wigInv g t L N) L N = .ok t := by
  have hok : wigFwd g (wigInv g t L N) L N = .ok (Arr3.of (2 * N - 1) L (2 * L - 1) fun k l i =>
    if max |i - (L - 1)| |k - (N - 1)| ≤ l then
      wcoef g L N (fun y j x => (wigInv g t L N).v [y, j, x]) (k - (N - 1)) l (i - (L - 1)) else 0) := if_pos rfl
  rw [hok]
  refine congrArg Except.ok (Arr3.ext_co ht.d.symm ht.r.symm ht.c.symm fun n l m => ?_)
  rw [wigFwd_co hok]
  split_ifs with h
  · exact wcoef_eq hg h.1 h.2.2 h.2.1 fun _ _ _ _ _ _ => rfl
  · by_cases hl : l < |n| ∨ l < |m| ∨ l < L0
    · exact (ht.zero n l m hl).symm
    · refine (t.junk _ _ _ ?_).symm
      rw [ht.d, ht.r]
      have h1 : max |m| |n| ≤ l := max_le (by omega) (by omega)
      have h2 : ¬ (|n| < N ∧ l < L) := fun hc => h ⟨hc.1, hc.2, h1⟩
      rw [abs_lt] at h2
      have e : (2 * N - 1 - 1) / 2 = N - 1 := by omega
      rw [e]
      omega

/-! ## Linearity -/

theorem fcoef_lin (K : ℤ) (a d : ℂ) (f f' : ℤ → ℂ) (m : ℤ) :
    fcoef K (fun x => a * f x + d * f' x) m = a * fcoef K f m + d * fcoef K f' m := by
  unfold fcoef
  simp only [add_mul, Finset.sum_add_distrib, mul_assoc, ← Finset.mul_sum]
  ring

theorem recover_lin (n : ℤ) (a d : ℂ) (f f' : ℤ → ℤ → ℂ) (l m : ℤ) :
    recover g L n (fun t x => a * f t x + d * f' t x) l m = a * recover g L n f l m + d * recover g L n f' l m := by
  unfold recover
  simp only [fcoef_lin, Finset.mul_sum, ← Finset.sum_add_distrib]
  exact Finset.sum_congr rfl fun t _ => by ring

theorem scoef_lin (a d : ℂ) (f f' : ℤ → ℤ → ℂ) (l m : ℤ) :
    scoef g s L (fun t x => a * f t x + d * f' t x) l m = a * scoef g s L f l m + d * scoef g s L f' l m := by
  unfold scoef; rw [recover_lin]; ring

theorem wcoef_lin (a d : ℂ) (f f' : ℤ → ℤ → ℤ → ℂ) (n l m : ℤ) :
    wcoef g L N (fun y t x => a * f y t x + d * f' y t x) n l m = a * wcoef g L N f n l m + d * wcoef g L N f' n l m := by
  unfold wcoef; simp only [fcoef_lin]; rw [recover_lin]; ring

theorem series_lin (a d : ℂ) (x y : ℤ → ℤ → ℂ) (θ φ : ℝ) :
    series s L (fun l m => a * x l m + d * y l m) θ φ = a * series s L x θ φ + d * series s L y θ φ := by
  unfold series
  simp only [Finset.mul_sum, ← Finset.sum_add_distrib]
  exact Finset.sum_congr rfl fun l _ => Finset.sum_congr rfl fun m _ => by ring

theorem wseries_lin (a d : ℂ) (x y : ℤ → ℤ → ℤ → ℂ) (α β γ : ℝ) :
    wseries L N (fun n l m => a * x n l m + d * y n l m) α β γ = a * wseries L N x α β γ + d * wseries L N y α β γ := by
  unfold wseries
  simp only [Finset.mul_sum, ← Finset.sum_add_distrib]
  exact Finset.sum_congr rfl fun n _ => Finset.sum_congr rfl fun l _ => Finset.sum_congr rfl fun m _ => by ring

theorem herm_lin (a d : ℝ) (x y : ℤ → ℤ → ℂ) (l m : ℤ) :
    herm (fun l m => (a : ℂ) * x l m + (d : ℂ) * y l m) l m = a * herm x l m + d * herm y l m := by
  unfold herm
  split_ifs
  · rfl
  · simp only [Complex.add_re, Complex.re_ofReal_mul]; push_cast; ring
  · simp only [map_add, map_mul, Complex.conj_ofReal]; ring

theorem real_of {a d : ℂ} (h : a.im = 0 ∧ d.im = 0) : (∃ r : ℝ, a = r) ∧ ∃ r : ℝ, d = r :=
  ⟨⟨_, Toy.ofReal_im_zero h.1⟩, _, Toy.ofReal_im_zero h.2⟩

theorem input_lin {a d : ℂ} (hr : reality = true → a.im = 0 ∧ d.im = 0) {x y : Arr2 ℂ} (h1 : x.r = y.r) (h2 : x.c = y.c) :
    input reality (x.lin a d y) = fun l m => a * input reality x l m + d * input reality y l m := by
  have e : co2 (x.lin a d y) = fun l m => a * co2 x l m + d * co2 y l m :=
    funext fun l => funext fun m => Arr2.lin_co h1 h2 l m
  funext l m
  unfold input
  cases reality
  · simp only [Bool.false_eq_true, if_false, e]
  · obtain ⟨⟨a, rfl⟩, d, rfl⟩ := real_of (hr rfl)
    simp only [if_true, e, herm_lin]

theorem sphInv_lin {a d : ℂ} (hr : reality = true → a.im = 0 ∧ d.im = 0) {x y : Arr2 ℂ} (h1 : x.r = y.r) (h2 : x.c = y.c) :
    sphInv g s reality (x.lin a d y) L = (sphInv g s reality x L).lin a d (sphInv g s reality y L) := by
  unfold sphInv Px.lin
  refine congrArg₂ Px.mk rfl (funext fun idx => ?_)
  dsimp only
  split
  · rw [input_lin hr h1 h2, series_lin]
  · simp

theorem output_lin {a d : ℂ} (hr : reality = true → a.im = 0 ∧ d.im = 0) (p q : Px) (l m : ℤ) :
    output g s reality (p.lin a d q) L l m = a * output g s reality p L l m + d * output g s reality q L l m := by
  unfold output Px.lin
  cases reality
  · simp only [Bool.false_eq_true, if_false, scoef_lin]
  · obtain ⟨⟨a, rfl⟩, d, rfl⟩ := real_of (hr rfl)
    simp only [if_true, Complex.add_re, Complex.re_ofReal_mul, Complex.ofReal_add, Complex.ofReal_mul]
    rw [← herm_lin]
    congr 1
    funext l m
    exact scoef_lin _ _ _ _ _ _

theorem sphFwd_lin {a d : ℂ} (hr : reality = true → a.im = 0 ∧ d.im = 0) {p q : Px} {x y : Arr2 ℂ}
    (hx : sphFwd g s reality p L = .ok x) (hy : sphFwd g s reality q L = .ok y) :
    sphFwd g s reality (p.lin a d q) L = .ok (x.lin a d y) := by
  obtain ⟨hp, hx1, hx2⟩ := sphFwd_shape hx
  obtain ⟨-, hy1, hy2⟩ := sphFwd_shape hy
  have hok : sphFwd g s reality (p.lin a d q) L = .ok (Arr2.of L (2 * L - 1) fun l i =>
    if max |i - (L - 1)| |s| ≤ l then output g s reality (p.lin a d q) L l (i - (L - 1)) else 0) := if_pos hp
  rw [hok]
  refine congrArg Except.ok (Arr2.ext_co hx1.symm hx2.symm fun l m => ?_)
  rw [sphFwd_co hok, Arr2.lin_co (hx1.trans hy1.symm) (hx2.trans hy2.symm), sphFwd_co hx, sphFwd_co hy]
  split_ifs
  · exact output_lin hr p q l m
  · simp

theorem wigInv_lin {a d : ℂ} {x y : Arr3 ℂ} (h0 : x.d = 2 * N - 1) (h0' : y.d = 2 * N - 1) (h1 : x.r = y.r) (h2 : x.c = y.c) :
    wigInv g (x.lin a d y) L N = (wigInv g x L N).lin a d (wigInv g y L N) := by
  have e : co3 (x.lin a d y) = fun n l m => a * co3 x n l m + d * co3 y n l m :=
    funext fun n => funext fun l => funext fun m => Arr3.lin_co (h0.trans h0'.symm) h1 h2 n l m
  unfold wigInv Px.lin
  refine congrArg₂ Px.mk rfl (funext fun idx => ?_)
  dsimp only
  split
  · rw [e, wseries_lin]
  · simp

theorem wigFwd_lin {a d : ℂ} {p q : Px} {x y : Arr3 ℂ} (hx : wigFwd g p L N = .ok x) (hy : wigFwd g q L N = .ok y) :
    wigFwd g (p.lin a d q) L N = .ok (x.lin a d y) := by
  obtain ⟨hp, hx0, hx1, hx2⟩ := wigFwd_shape hx
  obtain ⟨-, hy0, hy1, hy2⟩ := wigFwd_shape hy
  have hok : wigFwd g (p.lin a d q) L N = .ok (Arr3.of (2 * N - 1) L (2 * L - 1) fun k l i =>
    if max |i - (L - 1)| |k - (N - 1)| ≤ l then
      wcoef g L N (fun y t x => (p.lin a d q).v [y, t, x]) (k - (N - 1)) l (i - (L - 1)) else 0) := if_pos hp
  rw [hok]
  refine congrArg Except.ok (Arr3.ext_co hx0.symm hx1.symm hx2.symm fun n l m => ?_)
  rw [wigFwd_co hok, Arr3.lin_co (hx0.trans hy0.symm) (hx1.trans hy1.symm) (hx2.trans hy2.symm), wigFwd_co hx, wigFwd_co hy]
  split_ifs
  · exact wcoef_lin a d _ _ n l m
  · simp

/-! ## The engine and its contracts -/

/-- transforms of spin `s` on the grids `G` -/
noncomputable def engine (G : ℤ → Py Grid) (s : ℤ) (reality : Bool) : Engine where
  sphF p L := do let g ← G L; sphFwd g s reality p L
  sphI a L := do let g ← G L; .ok (sphInv g s reality a L)
  wigF p L N _ := do let g ← G L; wigFwd g p L N
  wigI t L N _ := do let g ← G L; .ok (wigInv g t L N)

section
variable {G : ℤ → Py Grid}

theorem bind_of {α β : Type} {x : Py α} {f : α → Py β} {b : β} (h : (do let a ← x; f a) = .ok b) : ∃ a, x = .ok a ∧ f a = .ok b := by
  cases x with
  | error e => cases h
  | ok a => exact ⟨a, rfl, h⟩

theorem bind_to {α β : Type} {x : Py α} {f : α → Py β} {a : α} (h : x = .ok a) : (do let a ← x; f a) = f a := by rw [h, Py.bind_ok]

theorem engine_std : (engine G s reality).Std reality := by
  constructor
  · intro p L a h
    obtain ⟨g, -, h⟩ := bind_of h
    have hb := sphFwd_bl h
    refine ⟨⟨hb.r, hb.c, fun l m hl => hb.zero l m ?_⟩, fun hr => ?_⟩
    · rw [abs_zero] at hl
      have := abs_nonneg m
      omega
    · rw [hr] at h; exact sphFwd_herm h
  · intro p L N L0 t h
    obtain ⟨g, -, h⟩ := bind_of h
    exact wigFwd_bl h

/-- grids with enough samples at every band-limit -/
def Sampled (G : ℤ → Py Grid) : Prop := ∀ L, 1 ≤ L → ∃ g, G L = .ok g ∧ g.Enough L

theorem engine_exact {spin : ℤ} (hG : Sampled G) (hs : |s| ≤ |spin|) (hr : reality = true → s = 0) :
    (engine G s reality).Exact spin reality := by
  constructor
  · intro L a hL ha hh
    obtain ⟨g, hg, hE⟩ := hG L hL
    refine ⟨sphInv g s reality a L, bind_to hg, (bind_to hg).trans ?_⟩
    refine sph_exact hE ⟨ha.r, ha.c, fun l m hl => ha.zero l m (by omega)⟩ fun h => ⟨hr h, hh h⟩
  · intro L N L0 t hL _ _ ht _
    obtain ⟨g, hg, hE⟩ := hG L hL
    exact ⟨wigInv g t L N, bind_to hg, (bind_to hg).trans (wig_exact hE ht)⟩

theorem engine_nonneg : (engine G s true).NonnegOnly := by
  intro L a a' h1 h2 h3 h
  have : input true a = input true a' := by
    funext l m
    simp only [input, if_true]
    unfold herm
    split_ifs with hm hm'
    · exact h l m hm.le
    · rw [h l 0 le_rfl]
    · rw [h l (-m) (by omega)]
  simp only [engine, sphInv, this]

theorem engine_linear : (engine G s reality).Linear reality := by
  constructor
  · intro a d hr p q L x y _ hx hy
    obtain ⟨g, hg, hx⟩ := bind_of hx
    have hy : sphFwd g s reality q L = .ok y := (bind_to hg).symm.trans hy
    exact (bind_to hg).trans (sphFwd_lin hr hx hy)
  · intro a d hr x y L p q h1 h2 h3 h4 hx hy
    obtain ⟨g, hg, hx⟩ := bind_of hx
    have hy : (.ok (sphInv g s reality y L) : Py Px) = .ok q := (bind_to hg).symm.trans hy
    cases hx; cases hy
    exact (bind_to hg).trans (congrArg _ (sphInv_lin hr (h1.trans h2.symm) (h3.trans h4.symm)))
  · intro a d _ p q L N L0 x y _ hx hy
    obtain ⟨g, hg, hx⟩ := bind_of hx
    have hy : wigFwd g q L N = .ok y := (bind_to hg).symm.trans hy
    exact (bind_to hg).trans (wigFwd_lin hx hy)
  · intro a d _ x y L N L0 p q h1 h2 h3 h4 h5 h6 hx hy
    obtain ⟨g, hg, hx⟩ := bind_of hx
    have hy : (.ok (wigInv g y L N) : Py Px) = .ok q := (bind_to hg).symm.trans hy
    cases hx; cases hy
    exact (bind_to hg).trans (congrArg _ (wigInv_lin h1 h2 (h3.trans h4.symm) (h5.trans h6.symm)))

theorem wignerd_zero (β : ℝ) : wignerd 0 0 0 β = 1 := by
  simp [wignerd, wwt, fac]

theorem sY_zero (θ φ : ℝ) : sY 0 0 0 θ φ = ((Real.sqrt (1 / (4 * Real.pi)) : ℝ) : ℂ) := by
  simp [sY, wignerd_zero, cis_zero]

/-- the one-pixel image the analysis routines return at band-limit 1 is a constant signal -/
theorem dc_value {spin : ℤ} {a : Arr2 ℂ} (ha : BL2 1 spin a) (hs : |s| ≤ |spin|) (θ φ : ℝ) :
    (Px.ofArr2 (a.map fun x => x * ((Real.sqrt (1 / (4 * Real.pi)) : ℝ) : ℂ))).v [0, 0] = series s 1 (co2 a) θ φ := by
  have e : ((Px.ofArr2 (a.map fun x => x * ((Real.sqrt (1 / (4 * Real.pi)) : ℝ) : ℂ))).v [0, 0]) =
      co2 a 0 0 * ((Real.sqrt (1 / (4 * Real.pi)) : ℝ) : ℂ) := by
    show (a.map fun x => x * ((Real.sqrt (1 / (4 * Real.pi)) : ℝ) : ℂ)).v 0 0 = _
    rw [Arr2.map_v _ (by simp), co2, ha.r]; rfl
  rw [e]
  unfold series
  by_cases hs0 : s = 0
  · subst hs0
    have e1 : Finset.Ico |(0 : ℤ)| 1 = {0} := by rfl
    have e2 : Finset.Icc (-(0 : ℤ)) 0 = {0} := by rfl
    rw [e1, Finset.sum_singleton, e2, Finset.sum_singleton, sY_zero]
  · have : 1 ≤ |s| := Int.one_le_abs hs0
    rw [Finset.Ico_eq_empty (by omega), Finset.sum_empty, ha.zero 0 0 (Or.inr (by omega)), zero_mul]

/-- at band-limit 1 a grid of one sample sees a constant image -/
theorem engine_dc {spin : ℤ} (hG : Sampled G) (hs : |s| ≤ |spin|) (hr : reality = true → s = 0)
    (h1 : ∀ g, G 1 = .ok g → g.nθ = 1 ∧ g.nφ = 1) : (engine G s reality).Dc spin reality := by
  intro a ha hh
  obtain ⟨g, hg, hE⟩ := hG 1 le_rfl
  obtain ⟨hθ, hφ⟩ := h1 g hg
  refine (bind_to hg).trans (sphFwd_of hE ?_ ?_ ⟨ha.r, ha.c, fun l m hl => ha.zero l m (by omega)⟩ fun h => ⟨hr h, hh h⟩)
  · show [a.r, a.c] = _
    rw [ha.r, ha.c, hθ, hφ]; rfl
  · intro t ht x hx
    rw [hθ] at ht; rw [hφ] at hx
    rw [Finset.mem_Ico] at ht hx
    have ht0 : t = 0 := by omega
    have hx0 : x = 0 := by omega
    subst ht0 hx0
    have hin : input reality a = co2 a := by
      unfold input
      cases hrr : reality
      · simp
      · rw [if_pos rfl, herm_of_sym (hh hrr)]
    rw [hin]
    exact dc_value ha hs _ _

end

/-! ## The backends -/

/-- the grids of s2fft -/
noncomputable def shapes : Shapes where
  s2 L sampling _ := do let g ← gridOf sampling L; .ok [g.nθ, g.nφ]
  so3 L N sampling _ := do let g ← gridOf sampling L; .ok [2 * N - 1, g.nθ, g.nφ]

noncomputable def base : BaseFFT where
  toShapes := shapes
  sphForward f L spin sampling _ reality := (engine (gridOf sampling) spin reality).sphF f L
  sphInverse a L spin sampling _ reality _ := (engine (gridOf sampling) spin reality).sphI a L
  wigForward f L N L0 sampling reality _ := (engine (gridOf sampling) 0 reality).wigF f L N L0
  wigInverse t L N L0 sampling reality _ := (engine (gridOf sampling) 0 reality).wigI t L N L0

noncomputable def jax : JaxFFT Unit where
  sphForward f L spin _ sampling reality := (engine (gridOf sampling) spin reality).sphF f L
  sphInverse a L spin _ sampling reality := (engine (gridOf sampling) spin reality).sphI a L
  genWigner _ _ _ _ _ _ _ := .ok ()
  wigForward f L N _ sampling reality _ L0 := (engine (gridOf sampling) 0 reality).wigF f L N L0
  wigInverse t L N _ sampling reality _ L0 := (engine (gridOf sampling) 0 reality).wigI t L N L0

noncomputable def ssht : CFFT where
  sphForward f L spin reality k := (engine (gridIx k) spin reality).sphF f L
  sphInverse a L spin reality k := (engine (gridIx k) spin reality).sphI a L
  wigForward f L N L0 sampling reality := (engine (gridOf sampling) 0 reality).wigF f L N L0
  wigInverse t L N L0 sampling reality := (engine (gridOf sampling) 0 reality).wigI t L N L0

/-- a kernel of a precomputed spherical harmonic transform holds the harmonics of the spin it was generated for -/
noncomputable def pre : PreFFT Unit ℤ where
  wigKernel _ _ _ _ _ _ := .ok ()
  sphKernel _ spin _ _ _ _ := .ok spin
  sphForward f k L sampling reality _ _ := (engine (gridOf sampling) k reality).sphF f L
  sphInverse a k L sampling reality _ _ := (engine (gridOf sampling) k reality).sphI a L
  wigForward f _ L N sampling reality _ := (engine (gridOf sampling) 0 reality).wigF f L N 0
  wigInverse t _ L N sampling reality _ := (engine (gridOf sampling) 0 reality).wigI t L N 0

/-- the six backends on this s2fft -/
def IsSphere (b : Backend) : Prop :=
  (∃ mr, b = .base base mr) ∨ (∃ mr, b = .looped base mr) ∨ b = .jax jax ∨ b = .ssht ssht ∨ b = .pre pre ∨ b = .torch pre

/-- the spin of the harmonics a backend expands signals in: the precomputed transforms always use spin 0 (C43) -/
def spinOf : Backend → Cfg → ℤ
  | .pre _, _ => 0
  | .torch _, _ => 0
  | _, c => c.spin

theorem abs_spinOf (b : Backend) (c : Cfg) : |spinOf b c| ≤ |c.spin| := by
  cases b <;> simp [spinOf]

theorem spinOf_zero {b : Backend} {c : Cfg} (h : c.spin = 0) : spinOf b c = 0 := by
  cases b <;> simp [spinOf, h]

/-- every backend runs the same transforms -/
theorem engine_eq {b : Backend} (hb : IsSphere b) (c : Cfg) : b.engine c = engine (gridOf c.sampling) (spinOf b c) c.reality := by
  rcases hb with ⟨mr, rfl⟩ | ⟨mr, rfl⟩ | rfl | rfl | rfl | rfl
  · rfl
  · rfl
  · rfl
  · simp only [Backend.engine, cEngine, ssht, engine, spinOf, gridOf]
    congr 1
    · funext f L
      cases C.sshtIndex c.sampling.toLower <;> rfl
    · funext f L
      cases C.sshtIndex c.sampling.toLower <;> rfl
  · rfl
  · rfl

end S2wav.Sphere
