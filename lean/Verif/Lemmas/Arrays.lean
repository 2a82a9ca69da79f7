import Verif.Py

/-! # Array reads, writes and fill loops -/

namespace S2wav

theorem pyIdx_ok {n i : ℤ} (h0 : 0 ≤ i) (h1 : i < n) : pyIdx n i = .ok i := by
  unfold pyIdx; rw [if_pos ⟨h0, h1⟩]

theorem jaxIdx_ok {n i : ℤ} (h0 : 0 ≤ i) (h1 : i < n) : jaxIdx n i = i := by
  unfold jaxIdx; rw [if_neg (by omega)]; omega

section
variable {α : Type} [Zero α]

theorem Arr1.get_ok (a : Arr1 α) {i : ℤ} (h0 : 0 ≤ i) (h1 : i < a.n) : a.get i = .ok (a.v i) := by
  simp [Arr1.get, pyIdx_ok h0 h1]

theorem Arr2.get_ok (a : Arr2 α) {i j : ℤ} (h0 : 0 ≤ i) (h1 : i < a.r) (h2 : 0 ≤ j) (h3 : j < a.c) :
    a.get i j = .ok (a.v i j) := by
  simp [Arr2.get, pyIdx_ok h0 h1, pyIdx_ok h2 h3]

theorem Arr3.get_ok (a : Arr3 α) {k i j : ℤ} (h0 : 0 ≤ k) (h1 : k < a.d) (h2 : 0 ≤ i) (h3 : i < a.r) (h4 : 0 ≤ j)
    (h5 : j < a.c) : a.get k i j = .ok (a.v k i j) := by
  simp [Arr3.get, pyIdx_ok h0 h1, pyIdx_ok h2 h3, pyIdx_ok h4 h5]

theorem Arr1.set_ok (a : Arr1 α) {i : ℤ} (x : α) (h0 : 0 ≤ i) (h1 : i < a.n) :
    a.set i x = .ok (Arr1.of a.n fun i' => if i' = i then x else a.v i') := by
  simp [Arr1.set, pyIdx_ok h0 h1]

theorem Arr2.set_ok (a : Arr2 α) {i j : ℤ} (x : α) (h0 : 0 ≤ i) (h1 : i < a.r) (h2 : 0 ≤ j) (h3 : j < a.c) :
    a.set i j x = .ok (Arr2.of a.r a.c fun i' j' => if i' = i ∧ j' = j then x else a.v i' j') := by
  simp [Arr2.set, pyIdx_ok h0 h1, pyIdx_ok h2 h3]

theorem Arr3.set_ok (a : Arr3 α) {k i j : ℤ} (x : α) (h0 : 0 ≤ k) (h1 : k < a.d) (h2 : 0 ≤ i) (h3 : i < a.r)
    (h4 : 0 ≤ j) (h5 : j < a.c) :
    a.set k i j x =
      .ok (Arr3.of a.d a.r a.c fun k' i' j' => if k' = k ∧ i' = i ∧ j' = j then x else a.v k' i' j') := by
  simp [Arr3.set, pyIdx_ok h0 h1, pyIdx_ok h2 h3, pyIdx_ok h4 h5]

theorem Arr1.row_ok (a : Arr2 α) {i : ℤ} (h0 : 0 ≤ i) (h1 : i < a.r) :
    a.row i = .ok (Arr1.of a.c fun j => a.v i j) := by
  simp [Arr2.row, pyIdx_ok h0 h1]

/-- an array is `Arr1.of` its own entries -/
theorem Arr1.eta (a : Arr1 α) : Arr1.of a.n a.v = a :=
  Arr1.ext' rfl fun i h0 h1 => Arr1.of_v _ _ _ ⟨h0, h1⟩
theorem Arr2.eta (a : Arr2 α) : Arr2.of a.r a.c a.v = a :=
  Arr2.ext' rfl rfl fun i j h0 h1 h2 h3 => Arr2.of_v _ _ _ _ _ ⟨h0, h1, h2, h3⟩
theorem Arr3.eta (a : Arr3 α) : Arr3.of a.d a.r a.c a.v = a :=
  Arr3.ext' rfl rfl rfl fun k i j h0 h1 h2 h3 h4 h5 => Arr3.of_v _ _ _ _ _ _ _ ⟨h0, h1, h2, h3, h4, h5⟩

theorem Arr1.of_congr {n : ℤ} {f g : ℤ → α} (h : ∀ i, 0 ≤ i → i < n → f i = g i) : Arr1.of n f = Arr1.of n g :=
  Arr1.ext' rfl fun i h0 h1 => 
    (Arr1.of_v n f i ⟨h0, h1⟩).trans ((h i h0 h1).trans (Arr1.of_v n g i ⟨h0, h1⟩).symm)
theorem Arr2.of_congr {r c : ℤ} {f g : ℤ → ℤ → α} (h : ∀ i j, 0 ≤ i → i < r → 0 ≤ j → j < c → f i j = g i j) :
    Arr2.of r c f = Arr2.of r c g :=
  Arr2.ext' rfl rfl fun i j h0 h1 h2 h3 => 
    (Arr2.of_v r c f i j ⟨h0, h1, h2, h3⟩).trans
      ((h i j h0 h1 h2 h3).trans (Arr2.of_v r c g i j ⟨h0, h1, h2, h3⟩).symm)
theorem Arr3.of_congr {d r c : ℤ} {f g : ℤ → ℤ → ℤ → α}
    (h : ∀ k i j, 0 ≤ k → k < d → 0 ≤ i → i < r → 0 ≤ j → j < c → f k i j = g k i j) :
    Arr3.of d r c f = Arr3.of d r c g :=
  Arr3.ext' rfl rfl rfl fun k i j h0 h1 h2 h3 h4 h5 => 
    (Arr3.of_v d r c f k i j ⟨h0, h1, h2, h3, h4, h5⟩).trans
      ((h k i j h0 h1 h2 h3 h4 h5).trans (Arr3.of_v d r c g k i j ⟨h0, h1, h2, h3, h4, h5⟩).symm)

theorem Arr1.of_out (n : ℤ) (f : ℤ → α) (i : ℤ) (h : ¬ (0 ≤ i ∧ i < n)) : (Arr1.of n f).v i = 0 := if_neg h
theorem Arr2.of_out (r c : ℤ) (f : ℤ → ℤ → α) (i j : ℤ) (h : ¬ (0 ≤ i ∧ i < r ∧ 0 ≤ j ∧ j < c)) :
    (Arr2.of r c f).v i j = 0 := if_neg h
theorem Arr3.of_out (d r c : ℤ) (f : ℤ → ℤ → ℤ → α) (k i j : ℤ)
    (h : ¬ (0 ≤ k ∧ k < d ∧ 0 ≤ i ∧ i < r ∧ 0 ≤ j ∧ j < c)) : (Arr3.of d r c f).v k i j = 0 := if_neg h

/-- `for l in range(c0, c1): arr[l] = f(l)` -/
theorem fill1_loop {n c0 c1 : ℤ} (f : ℤ → α) (g : ℤ → α) (hc0 : 0 ≤ c0) (hc1 : c1 ≤ n)
    {body : Arr1 α → ℤ → Py (Arr1 α)}
    (hbody : ∀ (a : Arr1 α) l, c0 ≤ l → l < c1 → a.n = n → body a l = a.set l (f l)) :
    (pyRange c0 c1).foldlM body (Arr1.of n g) =
      .ok (Arr1.of n fun l => if c0 ≤ l ∧ l < c1 then f l else g l) := by
  obtain ⟨s, hs, hP⟩ := range_loop' (a := c0) (b := c1) (body := body) (s := Arr1.of n g)
    (fun i s => s = Arr1.of n fun l => if c0 ≤ l ∧ l < i then f l else g l)
    (Arr1.of_congr fun l _ _ => by rw [if_neg (by omega)])
    (fun i s h1 h2 hP => by
      subst hP
      refine ⟨_, by rw [hbody _ i h1 h2 rfl, Arr1.set_ok _ _ (by omega) (by simp; omega)], ?_⟩
      refine Arr1.of_congr fun l h3 h4 => ?_
      rw [Arr1.of_n] at h4
      rw [Arr1.of_v _ _ _ ⟨h3, h4⟩]
      by_cases h : l = i
      · subst h; rw [if_pos rfl, if_pos (by omega)]
      · rw [if_neg h]
        have : (c0 ≤ l ∧ l < i) ↔ (c0 ≤ l ∧ l < i + 1) := by omega
        simp only [this])
  rw [hs, hP]
  congr 1
  refine Arr1.of_congr fun l _ _ => ?_
  have : (c0 ≤ l ∧ l < max c0 c1) ↔ (c0 ≤ l ∧ l < c1) := by omega
  simp only [this]

/-- `for l in range(c0, c1): arr[i, sh + l] = f(l)` -/
theorem fillrow_loop {r c i c0 c1 sh : ℤ} (f : ℤ → α) (g : ℤ → ℤ → α) (hi0 : 0 ≤ i) (hi1 : i < r)
    (hc0 : 0 ≤ sh + c0) (hc1 : sh + c1 ≤ c) {body : Arr2 α → ℤ → Py (Arr2 α)}
    (hbody : ∀ (a : Arr2 α) l, c0 ≤ l → l < c1 → a.r = r → a.c = c → body a l = a.set i (sh + l) (f l)) :
    (pyRange c0 c1).foldlM body (Arr2.of r c g) =
      .ok (Arr2.of r c fun i' k => if i' = i ∧ sh + c0 ≤ k ∧ k < sh + c1 then f (k - sh) else g i' k) := by
  obtain ⟨s, hs, hP⟩ := range_loop' (a := c0) (b := c1) (body := body) (s := Arr2.of r c g)
    (fun x s => s = Arr2.of r c fun i' k => if i' = i ∧ sh + c0 ≤ k ∧ k < sh + x then f (k - sh) else g i' k)
    (Arr2.of_congr fun i' l _ _ _ _ => by rw [if_neg (by omega)])
    (fun x s h1 h2 hP => by
      subst hP
      refine ⟨_, by rw [hbody _ x h1 h2 rfl rfl,
        Arr2.set_ok _ _ hi0 (by simpa using hi1) (by omega) (by simp; omega)], ?_⟩
      refine Arr2.of_congr fun i' l h3 h4 h5 h6 => ?_
      rw [Arr2.of_r] at h4
      rw [Arr2.of_c] at h6
      rw [Arr2.of_v _ _ _ _ _ ⟨h3, h4, h5, h6⟩]
      by_cases h : i' = i ∧ l = sh + x
      · rw [if_pos h, if_pos (by omega)]
        congr 1; omega
      · rw [if_neg h]
        have : (i' = i ∧ sh + c0 ≤ l ∧ l < sh + x) ↔ (i' = i ∧ sh + c0 ≤ l ∧ l < sh + (x + 1)) := by omega
        simp only [this])
  rw [hs, hP]
  congr 1
  refine Arr2.of_congr fun i' l _ _ _ _ => ?_
  have : (i' = i ∧ sh + c0 ≤ l ∧ l < sh + max c0 c1) ↔ (i' = i ∧ sh + c0 ≤ l ∧ l < sh + c1) := by omega
  simp only [this]

/-- `for i in range(r0, r1): body` where the body rewrites row `i` only, which is still as it was initially. -/
theorem rows_loop {r c r0 r1 : ℤ} (f : ℤ → ℤ → α) (g0 : ℤ → ℤ → α)
    {body : Arr2 α → ℤ → Py (Arr2 α)}
    (hbody : ∀ (g : ℤ → ℤ → α) i, r0 ≤ i → i < r1 → (∀ k, g i k = g0 i k) →
      body (Arr2.of r c g) i = .ok (Arr2.of r c fun i' k => if i' = i then f i k else g i' k))  :
    (pyRange r0 r1).foldlM body (Arr2.of r c g0) =
      .ok (Arr2.of r c fun i k => if r0 ≤ i ∧ i < r1 then f i k else g0 i k) := by
  obtain ⟨s, hs, hP⟩ := range_loop' (a := r0) (b := r1) (body := body) (s := Arr2.of r c g0)
    (fun x s => s = Arr2.of r c fun i k => if r0 ≤ i ∧ i < x then f i k else g0 i k)
    (Arr2.of_congr fun i' l _ _ _ _ => by rw [if_neg (by omega)])
    (fun x s h1 h2 hP => by
      subst hP
      refine ⟨_, hbody _ x h1 h2 (fun k => by rw [if_neg (by omega)]), ?_⟩
      refine Arr2.of_congr fun i' l h3 h4 h5 h6 => ?_
      by_cases h : i' = x
      · subst h; rw [if_pos rfl, if_pos (by omega)]
      · rw [if_neg h]
        have : (r0 ≤ i' ∧ i' < x) ↔ (r0 ≤ i' ∧ i' < x + 1) := by omega
        simp only [this])
  rw [hs, hP]
  congr 1
  refine Arr2.of_congr fun i' l _ _ _ _ => ?_
  have : (r0 ≤ i' ∧ i' < max r0 r1) ↔ (r0 ≤ i' ∧ i' < r1) := by omega
  simp only [this]

end

/-! ## Slices -/

/-- a slice `lo:hi` with in-range bounds -/
theorem mkSl_mid {n lo hi : ℤ} (h0 : 0 ≤ lo) (h1 : hi ≤ n) (h2 : 0 ≤ hi) :
    mkSl n (some lo) (some hi) = ⟨min lo n, max 0 (hi - min lo n), 1⟩ := by
  simp only [mkSl, slBound]
  rw [if_neg (by omega), if_neg (by omega), min_eq_left h1]
  congr 1
  omega

theorem mkSl_to {n hi : ℤ} (h1 : hi ≤ n) (h2 : 0 ≤ hi) :
    mkSl n none (some hi) = ⟨0, hi, 1⟩ := by
  simp only [mkSl, slBound]
  rw [if_neg (by omega), min_eq_left h1]
  congr 1
  omega

theorem mkSl_from {n lo : ℤ} (h0 : 0 ≤ lo) : mkSl n (some lo) none = ⟨min lo n, max 0 (n - min lo n), 1⟩ := by
  simp only [mkSl, slBound]
  rw [if_neg (by omega)]
  congr 1
  omega

theorem mkSl_all {n : ℤ} (h : 0 ≤ n) : mkSl n none none = ⟨0, n, 1⟩ := by
  simp only [mkSl]
  congr 1
  omega

theorem Sl.mem_one {s n i : ℤ} : (Sl.mk s n 1).mem i ↔ s ≤ i ∧ i < s + n := by
  simp only [Sl.mem]
  omega

theorem Sl.pos_one {s n i : ℤ} : (Sl.mk s n 1).pos i = i - s := by simp [Sl.pos]

theorem Sl.at_one {s n k : ℤ} : (Sl.mk s n 1).at k = s + k := by simp [Sl.at]

end S2wav
