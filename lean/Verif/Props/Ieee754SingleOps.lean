import Verif.Props.Ieee754Single

/-! # The single precision operations are those of IEEE 754 (part of C115), as C111 for double precision -/

namespace S2wav.Single
open Classical

/-- rounding of an extended real number -/
def NearestE (e : EReal) (r : F64) : Prop := (e = ⊤ ∧ r = .inf) ∨ (e = ⊥ ∧ r = .ninf) ∨ ∃ v : ℝ, e = v ∧ Nearest v r

theorem nearestE_coe (v : ℝ) : NearestE v (of v) := .inr (.inr ⟨v, rfl, of_nearest v⟩)

theorem nearestE_zero : NearestE 0 (.fin 0) :=
  .inr (.inr ⟨0, rfl, (C115_rounding 0 _).2 (sgl_of ⟨0, 0, by norm_num, by norm_num, by norm_num, by simp⟩)⟩)

/-- **C115** sum: the exact result rounded, `inf - inf` and NaN give NaN -/
theorem C115_add (x y : F64) :
    (x = .nan ∨ y = .nan ∨ (x = .inf ∧ y = .ninf) ∨ (x = .ninf ∧ y = .inf) → add x y = .nan) ∧
    (¬ (x = .nan ∨ y = .nan ∨ (x = .inf ∧ y = .ninf) ∨ (x = .ninf ∧ y = .inf)) → NearestE (ext x + ext y) (add x y)) := by
  cases x <;> cases y <;> simp [add, F64.add, ext, NearestE]
  rename_i a b
  exact .inr ⟨a + b, rfl, of_nearest _⟩

/-- **C115** difference -/
theorem C115_sub (x y : F64) :
    (x = .nan ∨ y = .nan ∨ (x = .inf ∧ y = .inf) ∨ (x = .ninf ∧ y = .ninf) → sub x y = .nan) ∧
    (¬ (x = .nan ∨ y = .nan ∨ (x = .inf ∧ y = .inf) ∨ (x = .ninf ∧ y = .ninf)) → NearestE (ext x - ext y) (sub x y)) := by
  cases x <;> cases y <;> simp [sub, add, F64.add, F64.neg, ext, NearestE]
  rename_i a b
  refine .inr (.inr ⟨a - b, by push_cast; rfl, ?_⟩)
  rw [sub_eq_add_neg]
  exact of_nearest _

/-- **C115** product: `0 * inf` and NaN give NaN -/
theorem C115_mul (x y : F64) :
    (x = .nan ∨ y = .nan ∨ (x = .fin 0 ∧ (y = .inf ∨ y = .ninf)) ∨ (y = .fin 0 ∧ (x = .inf ∨ x = .ninf)) → mul x y = .nan) ∧
    (¬ (x = .nan ∨ y = .nan ∨ (x = .fin 0 ∧ (y = .inf ∨ y = .ninf)) ∨ (y = .fin 0 ∧ (x = .inf ∨ x = .ninf))) →
      NearestE (ext x * ext y) (mul x y)) := by
  have hinf : ∀ a : ℝ, a ≠ 0 → NearestE ((a : EReal) * ⊤) (F64.infOf a) := by
    intro a ha
    unfold F64.infOf
    rcases lt_or_gt_of_ne ha with h | h
    · rw [EReal.coe_mul_top_of_neg h, if_neg (by linarith), if_pos h]; exact .inr (.inl ⟨rfl, rfl⟩)
    · rw [EReal.coe_mul_top_of_pos h, if_pos h]; exact .inl ⟨rfl, rfl⟩
  have hninf : ∀ a : ℝ, a ≠ 0 → NearestE ((a : EReal) * ⊥) (F64.infOf (-a)) := by
    intro a ha
    unfold F64.infOf
    rcases lt_or_gt_of_ne ha with h | h
    · rw [EReal.coe_mul_bot_of_neg h, if_pos (by linarith)]; exact .inl ⟨rfl, rfl⟩
    · rw [EReal.coe_mul_bot_of_pos h, if_neg (by linarith), if_pos (by linarith)]; exact .inr (.inl ⟨rfl, rfl⟩)
  have hz : F64.infOf 0 = .nan := by unfold F64.infOf; simp
  cases x <;> cases y <;> simp [mul, F64.mul, ext]
  · rename_i a b
    exact nearestE_coe (a * b)
  · rename_i a
    exact ⟨fun h => by rw [h, hz], hinf a⟩
  · rename_i a
    exact ⟨fun h => by rw [h, neg_zero, hz], hninf a⟩
  · rename_i a
    rw [mul_comm]
    exact ⟨fun h => by rw [h, hz], hinf a⟩
  · exact .inl ⟨rfl, rfl⟩
  · exact .inr (.inl ⟨rfl, rfl⟩)
  · rename_i a
    rw [mul_comm]
    exact ⟨fun h => by rw [h, neg_zero, hz], hninf a⟩
  · exact .inr (.inl ⟨rfl, rfl⟩)
  · exact .inl ⟨rfl, rfl⟩

/-- **C115** quotient by anything but zero: `inf / inf` and NaN give NaN -/
theorem C115_div (x y : F64) (hy : y ≠ .fin 0) :
    (x = .nan ∨ y = .nan ∨ ((x = .inf ∨ x = .ninf) ∧ (y = .inf ∨ y = .ninf)) → div x y = .nan) ∧
    (¬ (x = .nan ∨ y = .nan ∨ ((x = .inf ∨ x = .ninf) ∧ (y = .inf ∨ y = .ninf))) → NearestE (ext x / ext y) (div x y)) := by
  cases x <;> cases y <;> simp [div, F64.div, ext] at hy ⊢
  · rename_i a b
    rw [if_neg hy]
    exact nearestE_coe (a / b)
  · exact nearestE_zero
  · exact nearestE_zero
  · rename_i a
    rcases lt_or_gt_of_ne hy with h | h
    · rw [if_neg (by linarith), EReal.top_div_of_neg_ne_bot (by exact_mod_cast h) (EReal.coe_ne_bot _)]; exact .inr (.inl ⟨rfl, rfl⟩)
    · rw [if_pos h.le, EReal.top_div_of_pos_ne_top (by exact_mod_cast h) (EReal.coe_ne_top _)]; exact .inl ⟨rfl, rfl⟩
  · rename_i a
    rcases lt_or_gt_of_ne hy with h | h
    · rw [if_neg (by linarith), EReal.bot_div_of_neg_ne_bot (by exact_mod_cast h) (EReal.coe_ne_bot _)]; exact .inl ⟨rfl, rfl⟩
    · rw [if_pos h.le, EReal.bot_div_of_pos_ne_top (by exact_mod_cast h) (EReal.coe_ne_top _)]; exact .inr (.inl ⟨rfl, rfl⟩)

/-- **C115** division by zero: an infinity, or NaN for `0 / 0` -/
theorem C115_div_zero (x : F64) :
    (x = .nan ∨ x = .fin 0 → div x (.fin 0) = .nan) ∧
    (x ≠ .nan → 0 < ext x → div x (.fin 0) = .inf) ∧ (x ≠ .nan → ext x < 0 → div x (.fin 0) = .ninf) := by
  cases x <;> simp [div, F64.div, ext, F64.infOf]
  · rename_i a
    refine ⟨?_, ?_, ?_⟩
    · rintro rfl; simp
    · intro h h'; linarith
    · intro h; rw [if_neg (by linarith), if_pos h]

/-- **C115** square root -/
theorem C115_sqrt (x : F64) : (x = .nan ∨ ext x < 0 → sqrt x = .nan) ∧ (x = .inf → sqrt x = .inf) ∧
    ∀ a : ℝ, x = .fin a → 0 ≤ a → Nearest (Real.sqrt a) (sqrt x) := by
  cases x <;> simp [sqrt, F64.sqrt, ext]
  rename_i a
  exact ⟨fun h h' => by linarith, fun h => by rw [if_neg (by linarith)]; exact of_nearest _⟩

/-- **C115** conversion of a double: rounded once more, possibly to an infinity; infinities and NaN stay -/
theorem C115_cast (x : F64) : (x = .nan → cast x = .nan) ∧ (x ≠ .nan → NearestE (ext x) (cast x)) := by
  cases x <;> simp [cast, ext]
  · exact nearestE_coe _
  · exact .inl ⟨rfl, rfl⟩
  · exact .inr (.inl ⟨rfl, rfl⟩)

/-- `2^127 + 2^127` overflows in single precision, `inf - inf` and the root of `-1` are NaN, `1 / 0` is infinite -/
example : add (.fin (2 ^ 127)) (.fin (2 ^ 127)) = .inf ∧ sub .inf .inf = .nan ∧ div (.fin 1) (.fin 0) = .inf ∧ sqrt (.fin (-1)) = .nan := by
  refine ⟨?_, (C115_sub _ _).1 (by simp), (C115_div_zero _).2.1 (by simp) (by simp [ext]), (C115_sqrt _).1 (.inr (by simp [ext]))⟩
  refine (C115_rounding _ _).1 ?_
  show overflow ≤ _
  unfold overflow
  norm_num

end S2wav.Single
