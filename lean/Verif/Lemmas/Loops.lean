import Verif.Lemmas.Arrays

/-! # Generic loop rules -/

namespace S2wav
open Classical

/-- A loop every iteration `x` of which writes the cells `c x`, each cell being written at most once, with final
value `f`. -/
theorem cells_loop {ι β σ : Type} {a b : ℤ} (S : (ι → β) → σ) (c : ℤ → ι → Prop) (f g0 : ι → β)
    {body : σ → ℤ → Py σ} (disj : ∀ x y i, c x i → c y i → x = y)
    (hbody : ∀ g x, a ≤ x → x < b → (∀ i, c x i → g i = g0 i) →
      body (S g) x = .ok (S fun i => if c x i then f i else g i)) :
    (pyRange a b).foldlM body (S g0) = .ok (S fun i => if ∃ x, a ≤ x ∧ x < b ∧ c x i then f i else g0 i) := by
  obtain ⟨s, hs, hP⟩ := range_loop' (a := a) (b := b) (body := body) (s := S g0)
    (fun y s => s = S fun i => if ∃ x, a ≤ x ∧ x < y ∧ c x i then f i else g0 i)
    (by
      congr 1; funext i
      rw [if_neg]; rintro ⟨x, h1, h2, _⟩; omega)
    (fun x s h1 h2 hP => by
      subst hP
      refine ⟨_, hbody _ x h1 h2 (fun i hi => ?_), ?_⟩
      · rw [if_neg]
        rintro ⟨y, h3, h4, h5⟩
        have := disj _ _ _ hi h5
        omega
      · congr 1; funext i
        by_cases hx : c x i
        · rw [if_pos hx, if_pos ⟨x, h1, by omega, hx⟩]
        · rw [if_neg hx]
          have : (∃ y, a ≤ y ∧ y < x ∧ c y i) ↔ (∃ y, a ≤ y ∧ y < x + 1 ∧ c y i) := by
            constructor
            · rintro ⟨y, h3, h4, h5⟩; exact ⟨y, h3, by omega, h5⟩
            · rintro ⟨y, h3, h4, h5⟩
              refine ⟨y, h3, ?_, h5⟩
              rcases lt_or_eq_of_le (show y ≤ x by omega) with h | h
              · exact h
              · subst h; exact absurd h5 hx
          simp only [this])
  rw [hs, hP]
  congr 2; funext i
  have : (∃ x, a ≤ x ∧ x < max a b ∧ c x i) ↔ (∃ x, a ≤ x ∧ x < b ∧ c x i) := by
    constructor
    · rintro ⟨y, h3, h4, h5⟩; exact ⟨y, h3, by omega, h5⟩
    · rintro ⟨y, h3, h4, h5⟩; exact ⟨y, h3, by omega, h5⟩
  simp only [this]

/-- A loop every iteration `x` of which adds `d x` entrywise. -/
theorem add_loop {ι β σ : Type} [AddCommMonoid β] {a b : ℤ} (S : (ι → β) → σ) (d : ℤ → ι → β) (g0 : ι → β)
    {body : σ → ℤ → Py σ}
    (hbody : ∀ g x, a ≤ x → x < b → body (S g) x = .ok (S fun i => g i + d x i)) :
    (pyRange a b).foldlM body (S g0) = .ok (S fun i => g0 i + ∑ x ∈ Finset.Ico a b, d x i) := by
  obtain ⟨s, hs, hP⟩ := range_loop' (a := a) (b := b) (body := body) (s := S g0)
    (fun y s => s = S fun i => g0 i + ∑ x ∈ Finset.Ico a y, d x i) (by simp)
    (fun x s h1 h2 hP => by
      subst hP
      refine ⟨_, hbody _ x h1 h2, ?_⟩
      congr 1; funext i
      have : Finset.Ico a (x + 1) = insert x (Finset.Ico a x) := by
        ext y; simp only [Finset.mem_Ico, Finset.mem_insert]; omega
      rw [this, Finset.sum_insert (by simp), add_assoc, add_comm (d x i)])
  rw [hs, hP]
  congr 2; funext i
  have : Finset.Ico a (max a b) = Finset.Ico a b := by ext y; simp only [Finset.mem_Ico]; omega
  rw [this]

theorem pyRange2_eq {a : ℤ} (k : ℕ) : pyRange a (a + 2 * k - 1) 2 = (pyRange 0 (k : ℤ)).map fun i => a + 2 * i := by
  rw [pyRange_one]
  unfold pyRange
  have : ((a + 2 * (k : ℤ) - 1 - a + 2 - 1) / 2).toNat = (((k : ℤ) - 0)).toNat := by omega
  rw [this, List.map_map]
  apply List.map_congr_left
  intro i _
  simp only [Function.comp]
  ring

theorem foldlM_map' {α β σ : Type} (f : α → β) (body : σ → β → Py σ) (l : List α) (s : σ) :
    (l.map f).foldlM body s = l.foldlM (fun s x => body s (f x)) s := by
  induction l generalizing s with
  | nil => rfl
  | cons a t ih =>
    rw [List.map_cons, List.foldlM_cons, List.foldlM_cons]
    congr 1
    funext s'
    exact ih s'

/-- three-dimensional array as a function of a triple -/
def S3 {α : Type} [Zero α] (d r c : ℤ) (g : ℤ × ℤ × ℤ → α) : Arr3 α := Arr3.of d r c fun k i j => g (k, i, j)

/-- two-dimensional array as a function of a pair -/
def S2 {α : Type} [Zero α] (r c : ℤ) (g : ℤ × ℤ → α) : Arr2 α := Arr2.of r c fun i j => g (i, j)

section
variable {α : Type} [Zero α]

theorem S3_set {d r c : ℤ} (g : ℤ × ℤ × ℤ → α) {k i j : ℤ} (x : α) (h0 : 0 ≤ k) (h1 : k < d) (h2 : 0 ≤ i) (h3 : i < r)
    (h4 : 0 ≤ j) (h5 : j < c) :
    (S3 d r c g).set k i j x = .ok (S3 d r c fun t => if t = (k, i, j) then x else g t) := by
  unfold S3
  rw [Arr3.set_ok _ _ h0 h1 h2 h3 h4 h5]
  congr 1
  refine Arr3.of_congr fun k' i' j' a b c' d' e f => ?_
  rw [Arr3.of_v d r c _ k' i' j' ⟨a, b, c', d', e, f⟩]
  simp only [Prod.mk.injEq]

theorem S3_get {d r c : ℤ} (g : ℤ × ℤ × ℤ → α) {k i j : ℤ} (h0 : 0 ≤ k) (h1 : k < d) (h2 : 0 ≤ i) (h3 : i < r)
    (h4 : 0 ≤ j) (h5 : j < c) : (S3 d r c g).get k i j = .ok (g (k, i, j)) := by
  unfold S3
  rw [Arr3.get_ok _ h0 h1 h2 h3 h4 h5, Arr3.of_v d r c _ k i j ⟨h0, h1, h2, h3, h4, h5⟩]

theorem S2_set {r c : ℤ} (g : ℤ × ℤ → α) {i j : ℤ} (x : α) (h2 : 0 ≤ i) (h3 : i < r)
    (h4 : 0 ≤ j) (h5 : j < c) : (S2 r c g).set i j x = .ok (S2 r c fun t => if t = (i, j) then x else g t) := by
  unfold S2
  rw [Arr2.set_ok _ _ h2 h3 h4 h5]
  congr 1
  refine Arr2.of_congr fun i' j' c' d' e f => ?_
  rw [Arr2.of_v r c _ i' j' ⟨c', d', e, f⟩]
  simp only [Prod.mk.injEq]

theorem S2_get {r c : ℤ} (g : ℤ × ℤ → α) {i j : ℤ} (h2 : 0 ≤ i) (h3 : i < r)
    (h4 : 0 ≤ j) (h5 : j < c) : (S2 r c g).get i j = .ok (g (i, j)) := by
  unfold S2
  rw [Arr2.get_ok _ h2 h3 h4 h5, Arr2.of_v r c _ i j ⟨h2, h3, h4, h5⟩]

theorem S3_congr {d r c : ℤ} {f g : ℤ × ℤ × ℤ → α}
    (h : ∀ k i j, 0 ≤ k → k < d → 0 ≤ i → i < r → 0 ≤ j → j < c → f (k, i, j) = g (k, i, j)) :
    S3 d r c f = S3 d r c g := Arr3.of_congr h

theorem S2_congr {r c : ℤ} {f g : ℤ × ℤ → α}
    (h : ∀ i j, 0 ≤ i → i < r → 0 ≤ j → j < c → f (i, j) = g (i, j)) :
    S2 r c f = S2 r c g := Arr2.of_congr h

theorem S3_eta (a : Arr3 α) : S3 a.d a.r a.c (fun t => a.v t.1 t.2.1 t.2.2) = a := Arr3.eta a
theorem S2_eta (a : Arr2 α) : S2 a.r a.c (fun t => a.v t.1 t.2) = a := Arr2.eta a

end

end S2wav
