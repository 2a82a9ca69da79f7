import Verif.Model.Filters

/-!
# The Python / NumPy fragment against its documented meaning

`Py.lean` gives computable definitions of `range`, indexing, slicing, broadcasting and the array operations. These
theorems state what each one has to mean, without reference to how it is defined: the positions selected by a range or
a slice as a set, indexing by the condition on the index that makes it legal, a write by what later reads return.
-/

namespace S2wav

/-! ## Ranges, lists and slices -/

/-- `range(a, b, s)` lists exactly the `a + k s` below `b`, in increasing order. -/
theorem fragment_range {a b s : ℤ} (hs : 0 < s) :
    (∀ i, i ∈ pyRange a b s ↔ a ≤ i ∧ i < b ∧ (i - a) % s = 0) ∧ (pyRange a b s).Pairwise (· < ·) := by
  constructor
  · intro i
    unfold pyRange
    simp only [List.mem_map, List.mem_range]
    constructor
    · rintro ⟨k, hk, rfl⟩
      have hk' : (k : ℤ) < (b - a + s - 1) / s := by omega
      have h1 : (k : ℤ) * s + s ≤ b - a + s - 1 := by
        have h2 : ((k : ℤ) + 1) * s ≤ (b - a + s - 1) / s * s := mul_le_mul_of_nonneg_right hk' hs.le
        have h3 := Int.ediv_mul_le (b - a + s - 1) hs.ne'
        linarith
      refine ⟨by nlinarith [Int.natCast_nonneg k], by linarith, by simp⟩
    · rintro ⟨h1, h2, h3⟩
      obtain ⟨q, hq⟩ := Int.dvd_of_emod_eq_zero h3
      have hq0 : 0 ≤ q := by
        by_contra h
        nlinarith
      refine ⟨q.toNat, ?_, ?_⟩
      · have h4 : q + 1 ≤ (b - a + s - 1) / s := by
          rw [Int.le_ediv_iff_mul_le hs]
          nlinarith
        omega
      · rw [Int.toNat_of_nonneg hq0]
        linarith
  · unfold pyRange
    rw [List.pairwise_map]
    refine List.Pairwise.imp ?_ List.pairwise_lt_range
    intro m n h
    have : (m : ℤ) < n := by exact_mod_cast h
    nlinarith

/-- `l[i]` succeeds exactly for `-len(l) <= i < len(l)` and counts from the end for negative `i`. -/
theorem fragment_listGet {α} (l : List α) (i : ℤ) :
    (∀ k : ℕ, ∀ h : k < l.length, (i = k ∨ i = (k : ℤ) - l.length) → listGet l i = .ok l[k]) ∧
    (¬ (-(l.length : ℤ) ≤ i ∧ i < l.length) → listGet l i = .error .indexError) := by
  constructor
  · intro k h hi
    unfold listGet
    rcases hi with rfl | rfl
    · simp [h]
    · have h1 : ¬ (0 ≤ (k : ℤ) - l.length) := by omega
      have h2 : ((k : ℤ) - l.length + l.length).toNat = k := by omega
      simp only [if_neg h1, h2]
      rw [if_pos (by omega)]
      simp [h]
  · intro h
    unfold listGet
    split_ifs with h1 h2
    · rw [List.getElem?_eq_none (by omega)]
    · omega
    · rfl

/-- `l[i] = x` changes exactly the entry `l[i]` refers to, and raises where reading would. -/
theorem fragment_listSet {α} (l : List α) (i : ℤ) (x : α) :
    (∀ k : ℕ, k < l.length → (i = k ∨ i = (k : ℤ) - l.length) → listSet l i x = .ok (l.set k x)) ∧
    (¬ (-(l.length : ℤ) ≤ i ∧ i < l.length) → listSet l i x = .error .indexError) := by
  constructor
  · intro k h hi
    unfold listSet
    rcases hi with rfl | rfl
    · rw [if_pos (by omega), Int.toNat_natCast]
    · rw [if_neg (by omega), if_pos (by omega)]
      have h2 : ((k : ℤ) - l.length + l.length).toNat = k := by omega
      rw [h2]
  · intro h
    unfold listSet
    rw [if_neg (by omega), if_neg (by omega)]

/-- An array index refers to position `k` exactly when `k` is in range and `i` is `k` counted from either end. -/
theorem fragment_pyIdx (n i : ℤ) :
    (∀ k, pyIdx n i = .ok k ↔ 0 ≤ k ∧ k < n ∧ (i = k ∨ i = k - n)) ∧
    (pyIdx n i = .error .indexError ↔ ¬ (-n ≤ i ∧ i < n)) := by
  unfold pyIdx
  constructor
  · intro k
    split_ifs with h1 h2
    · simp only [Except.ok.injEq]; omega
    · simp only [Except.ok.injEq]; omega
    · simp; omega
  · split_ifs with h1 h2
    · simp; omega
    · simp; omega
    · simp; omega

/-- A JAX index agrees with the Python one where that exists; otherwise it is the nearest end of the axis. -/
theorem fragment_jaxIdx {n i : ℤ} (hn : 0 < n) :
    (∀ k, pyIdx n i = .ok k → jaxIdx n i = k) ∧ (n ≤ i → jaxIdx n i = n - 1) ∧ (i < -n → jaxIdx n i = 0) := by
  refine ⟨fun k hk => ?_, fun h => ?_, fun h => ?_⟩
  · have := ((fragment_pyIdx n i).1 k).1 hk
    unfold jaxIdx
    split_ifs <;> omega
  · unfold jaxIdx
    rw [if_neg (by omega)]
    omega
  · unfold jaxIdx
    rw [if_pos (by omega)]
    omega

/-- One bound of a slice, as the language reference words it: add the length if negative, then clamp to the axis. -/
def slicePoint (n i : ℤ) : ℤ :=
  let i := if i < 0 then i + n else i
  if i < 0 then 0 else if n < i then n else i

/-- `start:stop:step` selects the positions `i` from `start` up to but excluding `stop` with `step ∣ i - start`, all
inside the axis, in increasing order, `pos` and `at` being inverse to each other. -/
theorem fragment_slice {n step : ℤ} (hn : 0 ≤ n) (hs : 0 < step) (start stop : Option ℤ) :
    let a := (start.map (slicePoint n)).getD 0
    let b := (stop.map (slicePoint n)).getD n
    let s := mkSl n start stop step
    (∀ i, s.mem i ↔ a ≤ i ∧ i < b ∧ (i - a) % step = 0) ∧
    (∀ i, s.mem i → 0 ≤ i ∧ i < n) ∧
    (∀ k, 0 ≤ k → k < s.len → s.mem (s.at k) ∧ s.pos (s.at k) = k) ∧
    (∀ i, s.mem i → 0 ≤ s.pos i ∧ s.pos i < s.len ∧ s.at (s.pos i) = i) := by
  intro a b s
  have hp : ∀ i, slBound n i = slicePoint n i := by
    intro i
    unfold slBound slicePoint
    dsimp only
    split_ifs <;> omega
  have hin : ∀ i, 0 ≤ slicePoint n i ∧ slicePoint n i ≤ n := by
    intro i
    unfold slicePoint
    dsimp only
    split_ifs <;> omega
  have ha : 0 ≤ a ∧ a ≤ n := by
    cases start with
    | none => exact ⟨le_rfl, hn⟩
    | some i => exact hin i
  have hb : 0 ≤ b ∧ b ≤ n := by
    cases stop with
    | none => exact ⟨hn, le_rfl⟩
    | some i => exact hin i
  have e1 : s.start = a := by
    cases start with
    | none => rfl
    | some i => exact hp i
  have e2 : s.step = step := rfl
  have e3 : s.len = max 0 ((b - a + step - 1) / step) := by
    cases start with
    | none =>
      cases stop with
      | none => rfl
      | some i => simp only [s, a, b, mkSl, hp]; rfl
    | some i =>
      cases stop with
      | none => simp only [s, a, b, mkSl, hp]; rfl
      | some i => simp only [s, a, b, mkSl, hp]; rfl
  clear_value a b s
  have hmem : ∀ i, s.mem i ↔ a ≤ i ∧ i < b ∧ (i - a) % step = 0 := by
    intro i
    unfold Sl.mem
    rw [e1, e2, e3]
    constructor
    · rintro ⟨h1, h2, h3⟩
      obtain ⟨q, hq⟩ := Int.dvd_of_emod_eq_zero h1
      rw [hq, Int.mul_ediv_cancel_left _ hs.ne'] at h2 h3
      have h4 : q < (b - a + step - 1) / step := by omega
      have h5 : (q + 1) * step ≤ b - a + step - 1 := (Int.le_ediv_iff_mul_le hs).1 h4
      refine ⟨by nlinarith, by nlinarith, h1⟩
    · rintro ⟨h1, h2, h3⟩
      obtain ⟨q, hq⟩ := Int.dvd_of_emod_eq_zero h3
      rw [hq, Int.mul_ediv_cancel_left _ hs.ne']
      have hq0 : 0 ≤ q := by
        by_contra h
        nlinarith
      have h4 : q + 1 ≤ (b - a + step - 1) / step := by
        rw [Int.le_ediv_iff_mul_le hs]
        nlinarith
      exact ⟨hq ▸ h3, hq0, by omega⟩
  refine ⟨hmem, fun i hi => ?_, fun k hk0 hk => ?_, fun i hi => ?_⟩
  · have := (hmem i).1 hi
    omega
  · have h1 : (s.at k - s.start) = k * s.step := by unfold Sl.at; ring
    refine ⟨⟨?_, ?_, ?_⟩, ?_⟩
    · rw [h1]; simp
    · rw [h1, e2, Int.mul_ediv_cancel _ hs.ne']; exact hk0
    · rw [h1, e2, Int.mul_ediv_cancel _ hs.ne']; exact hk
    · unfold Sl.pos
      rw [h1, e2, Int.mul_ediv_cancel _ hs.ne']
  · refine ⟨hi.2.1, hi.2.2, ?_⟩
    unfold Sl.at Sl.pos
    have := Int.mul_ediv_add_emod (i - s.start) s.step
    rw [hi.1] at this
    linarith

/-! ## Broadcasting and arrays -/

/-- Two axes broadcast when equal or one has length 1; the result is the other length. -/
theorem fragment_bdim (a b : ℤ) :
    bdim a a = .ok a ∧ bdim 1 b = .ok b ∧ bdim a 1 = .ok a ∧
    (a ≠ b → a ≠ 1 → b ≠ 1 → bdim a b = .error .valueError) ∧
    (∀ i, bix 1 i = 0) ∧ (∀ d i, d ≠ 1 → bix d i = i) := by
  refine ⟨by simp [bdim], ?_, ?_, fun h1 h2 h3 => by simp [bdim, h1, h2, h3], fun i => by simp [bix],
    fun d i h => by simp [bix, h]⟩
  · by_cases h : 1 = b
    · simp [bdim, ← h]
    · simp [bdim, h]
  · by_cases h : a = 1 <;> simp [bdim, h]

example : pyRange (-2) 3 2 = [-2, 0, 2] ∧ bdim 1 5 = .ok 5 ∧ bdim 3 5 = .error .valueError := by decide

section arrays
variable {α : Type} [Zero α]

/-- `np.zeros` raises on a negative dimension and is zero everywhere otherwise. -/
theorem fragment_zeros :
    (∀ n, n < 0 → zeros1 (α := α) n = .error .valueError) ∧
    (∀ r c, r < 0 ∨ c < 0 → zeros2 (α := α) r c = .error .valueError) ∧
    (∀ d r c, d < 0 ∨ r < 0 ∨ c < 0 → zeros3 (α := α) d r c = .error .valueError) ∧
    (∀ n, 0 ≤ n → ∃ a, zeros1 (α := α) n = .ok a ∧ a.n = n ∧ ∀ i, a.v i = 0) ∧
    (∀ r c, 0 ≤ r → 0 ≤ c → ∃ a, zeros2 (α := α) r c = .ok a ∧ a.r = r ∧ a.c = c ∧ ∀ i j, a.v i j = 0) ∧
    (∀ d r c, 0 ≤ d → 0 ≤ r → 0 ≤ c → ∃ a, zeros3 (α := α) d r c = .ok a ∧ a.d = d ∧ a.r = r ∧ a.c = c ∧
      ∀ k i j, a.v k i j = 0) := by
  refine ⟨fun n h => if_pos h, fun r c h => if_pos h, fun d r c h => if_pos h, fun n h => ?_, fun r c h1 h2 => ?_,
    fun d r c h1 h2 h3 => ?_⟩
  · exact ⟨_, if_neg (by omega), rfl, fun i => by simp [Arr1.of]⟩
  · exact ⟨_, if_neg (by omega), rfl, rfl, fun i j => by simp [Arr2.of]⟩
  · exact ⟨_, if_neg (by omega), rfl, rfl, rfl, fun k i j => by simp [Arr3.of]⟩

/-- Element access on 1-, 2- and 3-d arrays: legal exactly when every index is, and then a write changes exactly the
addressed entry. -/
theorem fragment_get_set :
    (∀ (a : Arr1 α) (i p : ℤ), pyIdx a.n i = .ok p → a.get i = .ok (a.v p) ∧
      ∀ x, ∃ b, a.set i x = .ok b ∧ b.n = a.n ∧ ∀ q, b.v q = if q = p then x else a.v q) ∧
    (∀ (a : Arr2 α) (i j p q : ℤ), pyIdx a.r i = .ok p → pyIdx a.c j = .ok q → a.get i j = .ok (a.v p q) ∧
      ∀ x, ∃ b, a.set i j x = .ok b ∧ b.r = a.r ∧ b.c = a.c ∧
        ∀ s t, b.v s t = if s = p ∧ t = q then x else a.v s t) ∧
    (∀ (a : Arr3 α) (k i j o p q : ℤ), pyIdx a.d k = .ok o → pyIdx a.r i = .ok p → pyIdx a.c j = .ok q →
      a.get k i j = .ok (a.v o p q) ∧
      ∀ x, ∃ b, a.set k i j x = .ok b ∧ b.d = a.d ∧ b.r = a.r ∧ b.c = a.c ∧
        ∀ u s t, b.v u s t = if u = o ∧ s = p ∧ t = q then x else a.v u s t) ∧
    (∀ (a : Arr1 α) (i : ℤ) (x : α), pyIdx a.n i = .error .indexError →
      a.get i = .error .indexError ∧ a.set i x = .error .indexError) ∧
    (∀ (a : Arr2 α) (i j : ℤ) (x : α), pyIdx a.r i = .error .indexError ∨ pyIdx a.c j = .error .indexError →
      a.get i j = .error .indexError ∧ a.set i j x = .error .indexError) ∧
    (∀ (a : Arr3 α) (k i j : ℤ) (x : α), pyIdx a.d k = .error .indexError ∨ pyIdx a.r i = .error .indexError ∨
      pyIdx a.c j = .error .indexError → a.get k i j = .error .indexError ∧ a.set k i j x = .error .indexError) := by
  have only : ∀ n i, (∃ k, pyIdx n i = .ok k) ∨ pyIdx n i = .error .indexError := by
    intro n i
    unfold pyIdx
    split_ifs <;> simp
  refine ⟨fun a i p h => ?_, fun a i j p q h1 h2 => ?_, fun a k i j o p q h0 h1 h2 => ?_, fun a i x h => ?_,
    fun a i j x h => ?_, fun a k i j x h => ?_⟩
  · have hp := ((fragment_pyIdx _ _).1 _).1 h
    refine ⟨by simp [Arr1.get, h], fun x => ⟨Arr1.of a.n fun i' => if i' = p then x else a.v i', by simp only [Arr1.set, h, Py.bind_ok],
      rfl, fun q => ?_⟩⟩
    simp only [Arr1.of]
    by_cases hq : 0 ≤ q ∧ q < a.n
    · rw [if_pos hq]
    · rw [if_neg hq, if_neg (by omega), a.junk q hq]
  · have hp := ((fragment_pyIdx _ _).1 _).1 h1
    have hq := ((fragment_pyIdx _ _).1 _).1 h2
    refine ⟨by simp [Arr2.get, h1, h2], fun x => ⟨Arr2.of a.r a.c fun i' j' => if i' = p ∧ j' = q then x else a.v i' j',
      by simp only [Arr2.set, h1, h2, Py.bind_ok], rfl, rfl, fun s t => ?_⟩⟩
    simp only [Arr2.of]
    by_cases hst : 0 ≤ s ∧ s < a.r ∧ 0 ≤ t ∧ t < a.c
    · rw [if_pos hst]
    · rw [if_neg hst, if_neg (by omega), a.junk s t hst]
  · have ho := ((fragment_pyIdx _ _).1 _).1 h0
    have hp := ((fragment_pyIdx _ _).1 _).1 h1
    have hq := ((fragment_pyIdx _ _).1 _).1 h2
    refine ⟨by simp [Arr3.get, h0, h1, h2], fun x => ⟨Arr3.of a.d a.r a.c fun k' i' j' => if k' = o ∧ i' = p ∧ j' = q then x else a.v k' i' j',
      by simp only [Arr3.set, h0, h1, h2, Py.bind_ok], rfl, rfl, rfl, fun u s t => ?_⟩⟩
    simp only [Arr3.of]
    by_cases hst : 0 ≤ u ∧ u < a.d ∧ 0 ≤ s ∧ s < a.r ∧ 0 ≤ t ∧ t < a.c
    · rw [if_pos hst]
    · rw [if_neg hst, if_neg (by omega), a.junk u s t hst]
  · simp [Arr1.get, Arr1.set, h]
  · rcases only a.r i with ⟨p, hp⟩ | hp
    · rcases h with h | h
      · rw [hp] at h; cases h
      · simp [Arr2.get, Arr2.set, hp, h]
    · simp [Arr2.get, Arr2.set, hp]
  · rcases only a.d k with ⟨o, ho⟩ | ho
    · rcases only a.r i with ⟨p, hp⟩ | hp
      · rcases h with h | h | h
        · rw [ho] at h; cases h
        · rw [hp] at h; cases h
        · simp [Arr3.get, Arr3.set, ho, hp, h]
      · simp [Arr3.get, Arr3.set, ho, hp]
    · simp [Arr3.get, Arr3.set, ho]

/-- Reading a slice: entry `k` of the result is the `k`-th selected entry. -/
theorem fragment_slice_read :
    (∀ (a : Arr1 α) (s : Sl) (i : ℤ), 0 ≤ i → i < s.len → (a.slice s).v i = a.v (s.at i)) ∧
    (∀ (a : Arr2 α) (s t : Sl) (i j : ℤ), 0 ≤ i → i < s.len → 0 ≤ j → j < t.len →
      (a.slice s t).v i j = a.v (s.at i) (t.at j)) ∧
    (∀ (a : Arr3 α) (s t u : Sl) (k i j : ℤ), 0 ≤ k → k < s.len → 0 ≤ i → i < t.len → 0 ≤ j → j < u.len →
      (a.slice s t u).v k i j = a.v (s.at k) (t.at i) (u.at j)) ∧
    (∀ (a : Arr3 α) (k p : ℤ) (s t : Sl), pyIdx a.d k = .ok p → ∃ b, a.sliceAt k s t = .ok b ∧ b.r = s.len ∧
      b.c = t.len ∧ ∀ i j, 0 ≤ i → i < s.len → 0 ≤ j → j < t.len → b.v i j = a.v p (s.at i) (t.at j)) ∧
    (∀ (a : Arr3 α) (k p : ℤ) (s t : Sl), pyIdx a.d k = .ok p → a.sliceAt k s t = .ok (a.sliceAtJax k s t)) := by
  refine ⟨fun a s i h1 h2 => Arr1.of_v _ _ _ ⟨h1, h2⟩, fun a s t i j h1 h2 h3 h4 => Arr2.of_v _ _ _ _ _ ⟨h1, h2, h3, h4⟩,
    fun a s t u k i j h1 h2 h3 h4 h5 h6 => Arr3.of_v _ _ _ _ _ _ _ ⟨h1, h2, h3, h4, h5, h6⟩, fun a k p s t h => ?_,
    fun a k p s t h => ?_⟩
  · exact ⟨_, by simp only [Arr3.sliceAt, h, Py.bind_ok], rfl, rfl,
      fun i j h1 h2 h3 h4 => Arr2.of_v _ _ _ _ _ ⟨h1, h2, h3, h4⟩⟩
  · have hp := ((fragment_pyIdx _ _).1 _).1 h
    have hj := (fragment_jaxIdx (n := a.d) (i := k) (by omega)).1 p h
    simp only [Arr3.sliceAt, h, Py.bind_ok, Arr3.sliceAtJax, hj]

/-- Writing a slice: when the right-hand side has exactly the selected shape the selected entries become its entries
and nothing else changes; a length-1 axis is repeated; any other shape raises. -/
theorem fragment_slice_write (a w : Arr2 α) (s t : Sl) :
    (w.r = s.len → w.c = t.len → s.len ≠ 1 → t.len ≠ 1 → ∃ b, a.assign s t w = .ok b ∧ b.r = a.r ∧ b.c = a.c ∧
      ∀ i j, 0 ≤ i → i < a.r → 0 ≤ j → j < a.c →
        b.v i j = if s.mem i ∧ t.mem j then w.v (s.pos i) (t.pos j) else a.v i j) ∧
    (w.r = 1 → w.c = 1 → ∃ b, a.assign s t w = .ok b ∧ b.r = a.r ∧ b.c = a.c ∧
      ∀ i j, 0 ≤ i → i < a.r → 0 ≤ j → j < a.c → b.v i j = if s.mem i ∧ t.mem j then w.v 0 0 else a.v i j) ∧
    (¬ ((w.r = s.len ∨ w.r = 1) ∧ (w.c = t.len ∨ w.c = 1)) → a.assign s t w = .error .valueError) := by
  refine ⟨fun h1 h2 h3 h4 => ?_, fun h1 h2 => ?_, fun h => if_neg h⟩
  · refine ⟨_, if_pos ⟨Or.inl h1, Or.inl h2⟩, rfl, rfl, fun i j b1 b2 b3 b4 => ?_⟩
    rw [Arr2.of_v _ _ _ _ _ ⟨b1, b2, b3, b4⟩]
    simp only [bix, h1, h2, if_neg h3, if_neg h4]
  · refine ⟨_, if_pos ⟨Or.inr h1, Or.inr h2⟩, rfl, rfl, fun i j b1 b2 b3 b4 => ?_⟩
    rw [Arr2.of_v _ _ _ _ _ ⟨b1, b2, b3, b4⟩]
    simp only [bix, h1, h2, if_true]

/-- `np.roll(a, -1, axis=0)`: every row moves up by one and the first becomes the last. -/
theorem fragment_roll (a : Arr2 α) (j : ℤ) (hj : 0 ≤ j ∧ j < a.c) :
    (∀ i, 0 ≤ i → i + 1 < a.r → a.rollUp.v i j = a.v (i + 1) j) ∧ (0 < a.r → a.rollUp.v (a.r - 1) j = a.v 0 j) := by
  refine ⟨fun i h1 h2 => ?_, fun h => ?_⟩
  · unfold Arr2.rollUp
    rw [Arr2.of_v _ _ _ _ _ ⟨h1, by omega, hj.1, hj.2⟩, Int.emod_eq_of_lt (by omega) h2]
  · unfold Arr2.rollUp
    rw [Arr2.of_v _ _ _ _ _ ⟨by omega, by omega, hj.1, hj.2⟩]
    simp

/-- Single-row and scalar writes: `a[i, t] = w`, `a[s] = x` and `a[s, t, u] = x`. -/
theorem fragment_row_fill :
    (∀ (a : Arr2 α) (i p : ℤ) (t : Sl) (w : Arr1 α), pyIdx a.r i = .ok p → w.n = t.len → t.len ≠ 1 →
      ∃ b, a.setRow i t w = .ok b ∧ b.r = a.r ∧ b.c = a.c ∧ ∀ s j, 0 ≤ s → s < a.r → 0 ≤ j → j < a.c →
        b.v s j = if s = p ∧ t.mem j then w.v (t.pos j) else a.v s j) ∧
    (∀ (a : Arr1 α) (s : Sl) (x : α), (a.fill s x).n = a.n ∧ ∀ i, 0 ≤ i → i < a.n →
      (a.fill s x).v i = if s.mem i then x else a.v i) ∧
    (∀ (a : Arr3 α) (s t u : Sl) (x : α), ((a.fill s t u x).d = a.d ∧ (a.fill s t u x).r = a.r ∧
      (a.fill s t u x).c = a.c) ∧ ∀ k i j, 0 ≤ k → k < a.d → 0 ≤ i → i < a.r → 0 ≤ j → j < a.c →
      (a.fill s t u x).v k i j = if s.mem k ∧ t.mem i ∧ u.mem j then x else a.v k i j) := by
  refine ⟨fun a i p t w h1 h2 h3 => ?_, fun a s x => ⟨rfl, fun i h1 h2 => Arr1.of_v _ _ _ ⟨h1, h2⟩⟩,
    fun a s t u x => ⟨⟨rfl, rfl, rfl⟩, fun k i j h1 h2 h3 h4 h5 h6 => Arr3.of_v _ _ _ _ _ _ _ ⟨h1, h2, h3, h4, h5, h6⟩⟩⟩
  refine ⟨Arr2.of a.r a.c fun i' j => if i' = p ∧ t.mem j then w.v (bix w.n (t.pos j)) else a.v i' j,
    by simp only [Arr2.setRow, h1, Py.bind_ok, bcast, h2, true_or, if_true], rfl, rfl, fun s j b1 b2 b3 b4 => ?_⟩
  rw [Arr2.of_v _ _ _ _ _ ⟨b1, b2, b3, b4⟩]
  simp only [bix, h2, if_neg h3]

end arrays

section algebra
variable {α : Type} [NonUnitalNonAssocSemiring α]

/-- `a[s, t] += w` and its 3-d form: the selected entries grow by the entries of `w`, the others stay. -/
theorem fragment_addAt :
    (∀ (a w : Arr2 α) (s t : Sl), w.r = s.len → w.c = t.len → s.len ≠ 1 → t.len ≠ 1 →
      ∃ b, a.addAt s t w = .ok b ∧ b.r = a.r ∧ b.c = a.c ∧ ∀ i j, 0 ≤ i → i < a.r → 0 ≤ j → j < a.c →
        b.v i j = a.v i j + if s.mem i ∧ t.mem j then w.v (s.pos i) (t.pos j) else 0) ∧
    (∀ (a w : Arr2 α) (s t : Sl), ¬ ((w.r = s.len ∨ w.r = 1) ∧ (w.c = t.len ∨ w.c = 1)) →
      a.addAt s t w = .error .valueError) ∧
    (∀ (a w : Arr3 α) (s t u : Sl), w.d = s.len → w.r = t.len → w.c = u.len → s.len ≠ 1 → t.len ≠ 1 → u.len ≠ 1 →
      ∃ b, a.addAt s t u w = .ok b ∧ b.d = a.d ∧ b.r = a.r ∧ b.c = a.c ∧
        ∀ k i j, 0 ≤ k → k < a.d → 0 ≤ i → i < a.r → 0 ≤ j → j < a.c →
          b.v k i j = a.v k i j + if s.mem k ∧ t.mem i ∧ u.mem j then w.v (s.pos k) (t.pos i) (u.pos j) else 0) ∧
    (∀ (a w : Arr3 α) (s t u : Sl), ¬ ((w.d = s.len ∨ w.d = 1) ∧ (w.r = t.len ∨ w.r = 1) ∧ (w.c = u.len ∨ w.c = 1)) →
      a.addAt s t u w = .error .valueError) := by
  refine ⟨fun a w s t h1 h2 h3 h4 => ?_, fun a w s t h => if_neg h, fun a w s t u h1 h2 h3 h4 h5 h6 => ?_,
    fun a w s t u h => if_neg h⟩
  · refine ⟨_, if_pos ⟨Or.inl h1, Or.inl h2⟩, rfl, rfl, fun i j b1 b2 b3 b4 => ?_⟩
    rw [Arr2.of_v _ _ _ _ _ ⟨b1, b2, b3, b4⟩]
    simp only [bix, h1, h2, if_neg h3, if_neg h4]
    split_ifs <;> simp
  · refine ⟨_, if_pos ⟨Or.inl h1, Or.inl h2, Or.inl h3⟩, rfl, rfl, rfl, fun k i j b1 b2 b3 b4 b5 b6 => ?_⟩
    rw [Arr3.of_v _ _ _ _ _ _ _ ⟨b1, b2, b3, b4, b5, b6⟩]
    simp only [bix, h1, h2, h3, if_neg h4, if_neg h5, if_neg h6]
    split_ifs <;> simp

private theorem bdim_self (a : ℤ) : bdim a a = .ok a := by simp [bdim]

private theorem bix_of {d i : ℤ} (h1 : 0 ≤ i) (h2 : i < d) : bix d i = i := by
  unfold bix
  split_ifs <;> omega

/-- The contractions, for operands whose shared axes have equal lengths. -/
theorem fragment_einsum :
    (∀ (A : Arr2 α) (B : Arr3 α), A.r = B.r → A.c = B.d → ∃ R, einsum_ln_nlm A B = .ok R ∧ R.r = A.r ∧ R.c = B.c ∧
      ∀ l m, 0 ≤ l → l < A.r → 0 ≤ m → m < B.c → R.v l m = ∑ n ∈ Finset.Ico 0 A.c, A.v l n * B.v n l m) ∧
    (∀ A B : Arr2 α, A.r = B.r → ∃ R, einsum_lm_ln A B = .ok R ∧ R.d = B.c ∧ R.r = A.r ∧ R.c = A.c ∧
      ∀ n l m, 0 ≤ n → n < B.c → 0 ≤ l → l < A.r → 0 ≤ m → m < A.c → R.v n l m = A.v l m * B.v l n) ∧
    (∀ (A : Arr2 α) (b : Arr1 α), A.r = b.n → ∃ R, einsum_lm_l A b = .ok R ∧ R.r = A.r ∧ R.c = A.c ∧
      ∀ l m, 0 ≤ l → l < A.r → 0 ≤ m → m < A.c → R.v l m = A.v l m * b.v l) ∧
    (∀ (A : Arr3 α) (b : Arr1 α), A.r = b.n → ∃ R, einsum_jln_l A b = .ok R ∧ R.d = A.d ∧ R.r = A.r ∧ R.c = A.c ∧
      ∀ j l n, 0 ≤ j → j < A.d → 0 ≤ l → l < A.r → 0 ≤ n → n < A.c → R.v j l n = A.v j l n * b.v l) ∧
    (∀ A B : Arr2 α, A.c = B.r → ∃ R, einsum_ij_jk A B = .ok R ∧ R.d = A.r ∧ R.r = A.c ∧ R.c = B.c ∧
      ∀ i j k, 0 ≤ i → i < A.r → 0 ≤ j → j < A.c → 0 ≤ k → k < B.c → R.v i j k = A.v i j * B.v j k) := by
  refine ⟨fun A B h1 h2 => ?_, fun A B h1 => ?_, fun A b h1 => ?_, fun A b h1 => ?_, fun A B h1 => ?_⟩
  · refine ⟨Arr2.of A.r B.c fun i m =>
      ∑ k ∈ Finset.Ico 0 A.c, A.v (bix A.r i) (bix A.c k) * B.v (bix B.d k) (bix B.r i) m,
      by simp only [einsum_ln_nlm, ← h1, ← h2, bdim_self, Py.bind_ok], rfl, rfl, fun l m a1 a2 a3 a4 => ?_⟩
    rw [Arr2.of_v _ _ _ _ _ ⟨a1, a2, a3, a4⟩]
    refine Finset.sum_congr rfl fun n hn => ?_
    rw [Finset.mem_Ico] at hn
    rw [bix_of a1 a2, bix_of hn.1 hn.2, bix_of hn.1 (h2 ▸ hn.2), bix_of a1 (h1 ▸ a2)]
  · refine ⟨Arr3.of B.c A.r A.c fun n i m => A.v (bix A.r i) m * B.v (bix B.r i) n,
      by simp only [einsum_lm_ln, ← h1, bdim_self, Py.bind_ok], rfl, rfl, rfl, fun n l m a1 a2 a3 a4 a5 a6 => ?_⟩
    rw [Arr3.of_v _ _ _ _ _ _ _ ⟨a1, a2, a3, a4, a5, a6⟩, bix_of a3 a4, bix_of a3 (h1 ▸ a4)]
  · refine ⟨Arr2.of A.r A.c fun i m => A.v (bix A.r i) m * b.v (bix b.n i),
      by simp only [einsum_lm_l, ← h1, bdim_self, Py.bind_ok], rfl, rfl, fun l m a1 a2 a3 a4 => ?_⟩
    rw [Arr2.of_v _ _ _ _ _ ⟨a1, a2, a3, a4⟩, bix_of a1 a2, bix_of a1 (h1 ▸ a2)]
  · refine ⟨Arr3.of A.d A.r A.c fun j i n => A.v j (bix A.r i) n * b.v (bix b.n i),
      by simp only [einsum_jln_l, ← h1, bdim_self, Py.bind_ok], rfl, rfl, rfl, fun j l n a1 a2 a3 a4 a5 a6 => ?_⟩
    rw [Arr3.of_v _ _ _ _ _ _ _ ⟨a1, a2, a3, a4, a5, a6⟩, bix_of a3 a4, bix_of a3 (h1 ▸ a4)]
  · refine ⟨Arr3.of A.r A.c B.c fun i k m => A.v i (bix A.c k) * B.v (bix B.r k) m,
      by simp only [einsum_ij_jk, ← h1, bdim_self, Py.bind_ok], rfl, rfl, rfl, fun i j k a1 a2 a3 a4 a5 a6 => ?_⟩
    rw [Arr3.of_v _ _ _ _ _ _ _ ⟨a1, a2, a3, a4, a5, a6⟩, bix_of a3 a4, bix_of a3 (h1 ▸ a4)]

end algebra

/-! ## Floating point operations that can fail -/

/-- `np.sqrt` returns the non-negative root, and no number for a negative argument (for an array: if any entry is). -/
theorem fragment_sqrt :
    (∀ x : ℝ, 0 ≤ x → ∃ r, npSqrt x = .ok r ∧ 0 ≤ r ∧ r * r = x) ∧ (∀ x : ℝ, x < 0 → npSqrt x = .error .nan) ∧
    (∀ a : Arr1 ℝ, (∀ i, 0 ≤ a.v i) → ∃ r, npSqrt1 a = .ok r ∧ r.n = a.n ∧ ∀ i, 0 ≤ r.v i ∧ r.v i * r.v i = a.v i) ∧
    (∀ (a : Arr1 ℝ) i, a.v i < 0 → npSqrt1 a = .error .nan) ∧
    (∀ a : Arr2 ℝ, (∀ i j, 0 ≤ a.v i j) → ∃ r, npSqrt2 a = .ok r ∧ r.r = a.r ∧ r.c = a.c ∧
      ∀ i j, 0 ≤ r.v i j ∧ r.v i j * r.v i j = a.v i j) ∧
    (∀ (a : Arr2 ℝ) i j, a.v i j < 0 → npSqrt2 a = .error .nan) := by
  refine ⟨fun x h => ⟨_, if_neg (not_lt.2 h), Real.sqrt_nonneg _, Real.mul_self_sqrt h⟩, fun x h => if_pos h,
    fun a h => ⟨_, if_neg (by simpa using h), rfl, fun i => ?_⟩, fun a i h => if_pos ⟨i, h⟩,
    fun a h => ⟨_, if_neg (by simpa using h), rfl, rfl, fun i j => ?_⟩, fun a i j h => if_pos ⟨i, j, h⟩⟩
  · by_cases hi : 0 ≤ i ∧ i < a.n
    · rw [Arr1.map, Arr1.of_v _ _ _ hi]
      exact ⟨Real.sqrt_nonneg _, Real.mul_self_sqrt (h i)⟩
    · rw [(a.map Real.sqrt).junk i hi, a.junk i hi]
      simp
  · by_cases hi : 0 ≤ i ∧ i < a.r ∧ 0 ≤ j ∧ j < a.c
    · rw [Arr2.map, Arr2.of_v _ _ _ _ _ hi]
      exact ⟨Real.sqrt_nonneg _, Real.mul_self_sqrt (h i j)⟩
    · rw [(a.map Real.sqrt).junk i j hi, a.junk i j hi]
      simp

/-- Division of floats, raising on a zero divisor. -/
theorem fragment_div : (∀ x y : ℝ, y ≠ 0 → ∃ q, pyDiv x y = .ok q ∧ q * y = x) ∧
    ∀ x : ℝ, pyDiv x 0 = .error .zeroDivision :=
  ⟨fun _ _ h => ⟨_, if_neg h, div_mul_cancel₀ _ h⟩, fun _ => if_pos rfl⟩

/-- a slice with a negative start, a stop past the end and step 2 on an axis of length 7: positions 2, 4, 6 -/
example : let s := mkSl 7 (some (-5)) (some 100) 2
    s.len = 3 ∧ s.mem 2 ∧ ¬ s.mem 3 ∧ s.mem 4 ∧ s.mem 6 ∧ ¬ s.mem 8 ∧ s.at 2 = 6 := by decide

end S2wav
