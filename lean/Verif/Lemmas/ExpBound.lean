import Verif.Props.C20_Transition

/-!
# Exponential bounds on transition matrices
-/

set_option linter.unusedSectionVars false

namespace Verif
open Matrix
open scoped Kronecker

/-- forward in time, the entries of `exp (t F)` are bounded by a multiple of `exp (-a t)` -/
def ExpBound {n : Type} [Fintype n] [DecidableEq n] (F : Matrix n n ℝ) (a : ℝ) : Prop :=
  ∃ C, 0 ≤ C ∧ ∀ t : ℝ, 0 ≤ t → ∀ i j, |NormedSpace.exp (t • F) i j| ≤ C * Real.exp (-a * t)

section
variable {n : Type} [Fintype n] [DecidableEq n]

theorem ExpBound.mono {F : Matrix n n ℝ} {a b : ℝ} (h : ExpBound F a) (hab : b ≤ a) : ExpBound F b := by
  obtain ⟨C, hC, h⟩ := h
  refine ⟨C, hC, fun t ht i j => (h t ht i j).trans (mul_le_mul_of_nonneg_left (Real.exp_le_exp.2 ?_) hC)⟩
  nlinarith

theorem ExpBound.blockDiag {n' : Type} [Fintype n'] [DecidableEq n'] {F : Matrix n n ℝ} {G : Matrix n' n' ℝ} {a : ℝ} (h1 : ExpBound F a)
    (h2 : ExpBound G a) : ExpBound (Verif.blockDiag F G) a := by
  obtain ⟨C, hC, h1⟩ := h1
  obtain ⟨D, hD, h2⟩ := h2
  refine ⟨C + D, add_nonneg hC hD, fun t ht i j => ?_⟩
  rw [← expm_blockDiag]
  have he := Real.exp_pos (-a * t)
  rcases i with i | i <;> rcases j with j | j
  · refine (h1 t ht i j).trans ?_
    nlinarith
  · show |(0 : ℝ)| ≤ _
    rw [abs_zero]; positivity
  · show |(0 : ℝ)| ≤ _
    rw [abs_zero]; positivity
  · refine (h2 t ht i j).trans ?_
    nlinarith

theorem ExpBound.kron {n' : Type} [Fintype n'] [DecidableEq n'] {F : Matrix n n ℝ} {G : Matrix n' n' ℝ} {a b : ℝ} (h1 : ExpBound F a)
    (h2 : ExpBound G b) : ExpBound (F ⊗ₖ (1 : Matrix n' n' ℝ) + (1 : Matrix n n ℝ) ⊗ₖ G) (a + b) := by
  obtain ⟨C, hC, h1⟩ := h1
  obtain ⟨D, hD, h2⟩ := h2
  refine ⟨C * D, mul_nonneg hC hD, fun t ht ⟨i, i'⟩ ⟨j, j'⟩ => ?_⟩
  rw [← expm_kron]
  show |NormedSpace.exp (t • F) i j * NormedSpace.exp (t • G) i' j'| ≤ _
  rw [abs_mul, show -(a + b) * t = -a * t + -b * t by ring, Real.exp_add]
  calc _ ≤ (C * Real.exp (-a * t)) * (D * Real.exp (-b * t)) :=
        mul_le_mul (h1 t ht i j) (h2 t ht i' j') (abs_nonneg _) (by positivity)
    _ = _ := by ring

/-- a bound for each entry is enough -/
theorem ExpBound.of_entries {F : Matrix n n ℝ} {a : ℝ} (h : ∀ i j, ∃ C, 0 ≤ C ∧ ∀ t : ℝ, 0 ≤ t → |NormedSpace.exp (t • F) i j| ≤ C * Real.exp (-a * t)) :
    ExpBound F a := by
  choose C hC h using h
  refine ⟨∑ i, ∑ j, C i j, Finset.sum_nonneg fun i _ => Finset.sum_nonneg fun j _ => hC i j, fun t ht i j => (h i j t ht).trans ?_⟩
  refine mul_le_mul_of_nonneg_right ?_ (Real.exp_pos _).le
  exact (Finset.single_le_sum (f := fun j => C i j) (fun j _ => hC i j) (Finset.mem_univ j)).trans
    (Finset.single_le_sum (f := fun i => ∑ j, C i j) (fun i _ => Finset.sum_nonneg fun j _ => hC i j) (Finset.mem_univ i))

theorem ExpBound.of_nilpotent {F : Matrix n n ℝ} {lam : ℝ} (hl : 0 < lam) {d : ℕ} (h : (F + lam • 1) ^ d = 0) : ExpBound F (lam / 2) := by
  refine .of_entries fun i j => ?_
  refine ⟨∑ k ∈ Finset.range d, (2 / lam) ^ k * |((F + lam • 1) ^ k) i j|,
    Finset.sum_nonneg fun k _ => mul_nonneg (by positivity) (abs_nonneg _), fun t ht => ?_⟩
  rw [expm_of_nilpotent h, Matrix.smul_apply, Matrix.sum_apply, smul_eq_mul, abs_mul, abs_of_pos (Real.exp_pos _),
    show -lam * t = -(lam / 2) * t + -(lam / 2 * t) by ring, Real.exp_add, mul_assoc, mul_comm (∑ k ∈ _, _)]
  refine mul_le_mul_of_nonneg_left ?_ (Real.exp_pos _).le
  have habs := Finset.abs_sum_le_sum_abs (fun k => ((t ^ k / k.factorial) • (F + lam • 1) ^ k) i j) (Finset.range d)
  refine (mul_le_mul_of_nonneg_left habs (Real.exp_pos _).le).trans ?_
  rw [Finset.mul_sum]
  refine Finset.sum_le_sum fun k _ => ?_
  rw [Matrix.smul_apply, smul_eq_mul, abs_mul, ← mul_assoc]
  refine mul_le_mul_of_nonneg_right ?_ (abs_nonneg _)
  rw [abs_of_nonneg (by positivity)]
  have hx := Real.pow_div_factorial_le_exp (lam / 2 * t) (by positivity) k
  have e : t ^ k / (k.factorial : ℝ) = (2 / lam) ^ k * ((lam / 2 * t) ^ k / k.factorial) := by
    rw [mul_pow, ← mul_div_assoc, ← mul_assoc, ← mul_pow]
    congr 2
    rw [show 2 / lam * (lam / 2) = 1 by field_simp, one_pow, one_mul]
  rw [e]
  calc Real.exp (-(lam / 2 * t)) * ((2 / lam) ^ k * ((lam / 2 * t) ^ k / k.factorial))
      ≤ Real.exp (-(lam / 2 * t)) * ((2 / lam) ^ k * Real.exp (lam / 2 * t)) := by gcongr
    _ = (2 / lam) ^ k * (Real.exp (-(lam / 2 * t)) * Real.exp (lam / 2 * t)) := by ring
    _ = (2 / lam) ^ k := by rw [← Real.exp_add, neg_add_cancel, Real.exp_zero, mul_one]

end

theorem ExpBound.rotation (w : ℝ) : ExpBound (!![0, -w; w, 0] : Matrix (Fin 2) (Fin 2) ℝ) 0 := by
  refine ⟨1, zero_le_one, fun t _ i j => ?_⟩
  rw [← rotation_expm, neg_zero, zero_mul, Real.exp_zero, mul_one]
  fin_cases i <;> fin_cases j
  · exact Real.abs_cos_le_one _
  · show |-Real.sin _| ≤ 1
    rw [abs_neg]; exact Real.abs_sin_le_one _
  · exact Real.abs_sin_le_one _
  · exact Real.abs_cos_le_one _

/-! ### leaves -/

theorem Exp.expBound {scale : ℝ} (hs : 0 < scale) : ExpBound (!![-(1 / scale)] : Matrix (Fin 1) (Fin 1) ℝ) (1 / scale / 2) :=
  .of_nilpotent (d := 1) (by positivity) (by
    rw [pow_one, one1, smul1]
    ext i j
    fin_cases i; fin_cases j
    simp)

theorem Matern32.expBound {lam : ℝ} (hl : 0 < lam) : ExpBound (Matern32.F lam) (lam / 2) :=
  .of_nilpotent (d := 2) hl (by
    rw [pow_two, one2, smul2]
    ext i j
    fin_cases i <;> fin_cases j <;> simp [Matern32.F, Matrix.mul_apply, Fin.sum_univ_two] <;> ring)

theorem Matern52.expBound {lam : ℝ} (hl : 0 < lam) : ExpBound (Matern52.F lam) (lam / 2) :=
  .of_nilpotent (d := 3) hl (by
    rw [pow_succ, pow_two, one3, smul3]
    ext i j
    fin_cases i <;> fin_cases j <;> simp [Matern52.F, Matrix.mul_apply, Fin.sum_univ_three] <;> ring)

namespace SHO

theorem expBound {w q : ℝ} (hw : 0 < w) (hq : 0 < q) : ∃ a, 0 < a ∧ ExpBound (F w q) a := by
  rcases lt_trichotomy q (1 / 2) with h | h | h
  · -- overdamped
    have hn := eta_sq_over hq h
    have hn0 := eta_pos_over hq h
    set η := eta q with hη
    have hlt : η < 1 / (2 * q) := by
      refine lt_of_pow_lt_pow_left₀ 2 (by positivity) ?_
      rw [hn]
      have : (1 / (2 * q)) ^ 2 = 1 / (4 * q ^ 2) := by field_simp; ring
      rw [this]
      linarith
    refine ⟨w * (1 / (2 * q) - η), mul_pos hw (sub_pos.2 hlt), ?_⟩
    have hch : ∀ t : ℝ, 0 ≤ t → |Real.cosh (η * w * t)| ≤ Real.exp (η * w * t) := by
      intro t ht
      rw [abs_of_pos (Real.cosh_pos _), Real.cosh_eq]
      have : Real.exp (-(η * w * t)) ≤ Real.exp (η * w * t) := Real.exp_le_exp.2 (by
        have : 0 ≤ η * w * t := by positivity
        linarith)
      linarith
    have hsh : ∀ t : ℝ, 0 ≤ t → |Real.sinh (η * w * t)| ≤ Real.exp (η * w * t) := by
      intro t ht
      have h0 : 0 ≤ η * w * t := by positivity
      rw [abs_of_nonneg (Real.sinh_nonneg_iff.2 h0), Real.sinh_eq]
      have := Real.exp_pos (-(η * w * t))
      have := Real.exp_pos (η * w * t)
      linarith
    have key : ∀ a b t : ℝ, 0 ≤ t → |Real.exp (-0.5 * w * t / q) * (a * Real.cosh (η * w * t) + b * Real.sinh (η * w * t))| ≤
        (|a| + |b|) * Real.exp (-(w * (1 / (2 * q) - η)) * t) := by
      intro a b t ht
      rw [abs_mul, abs_of_pos (Real.exp_pos _), show -(w * (1 / (2 * q) - η)) * t = -0.5 * w * t / q + η * w * t by
        norm_num; field_simp; ring, Real.exp_add]
      have h1 : |a * Real.cosh (η * w * t) + b * Real.sinh (η * w * t)| ≤ (|a| + |b|) * Real.exp (η * w * t) := by
        refine (abs_add_le _ _).trans ?_
        rw [abs_mul, abs_mul, add_mul]
        exact add_le_add (mul_le_mul_of_nonneg_left (hch t ht) (abs_nonneg _)) (mul_le_mul_of_nonneg_left (hsh t ht) (abs_nonneg _))
      calc _ ≤ Real.exp (-0.5 * w * t / q) * ((|a| + |b|) * Real.exp (η * w * t)) := mul_le_mul_of_nonneg_left h1 (Real.exp_pos _).le
        _ = _ := by ring
    have hA : ∀ t : ℝ, NormedSpace.exp (t • F w q) =
        !![Real.exp (-0.5 * w * t / q) * (1 * Real.cosh (η * w * t) + 1 / (2 * η * q) * Real.sinh (η * w * t)),
           Real.exp (-0.5 * w * t / q) * (0 * Real.cosh (η * w * t) + 1 / (w * η) * Real.sinh (η * w * t));
           Real.exp (-0.5 * w * t / q) * (0 * Real.cosh (η * w * t) + -w / η * Real.sinh (η * w * t)),
           Real.exp (-0.5 * w * t / q) * (1 * Real.cosh (η * w * t) + -(1 / (2 * η * q)) * Real.sinh (η * w * t))] := by
      intro t
      rw [← Aover_expm hw.ne' hq h]
      simp only [Aover, smul2, ← hη]
      refine ext2 ?_ ?_ ?_ ?_ <;> ring
    refine .of_entries fun i j => ?_
    fin_cases i <;> fin_cases j
    · exact ⟨|1| + |1 / (2 * η * q)|, by positivity, fun t ht => by rw [hA]; exact key 1 (1 / (2 * η * q)) t ht⟩
    · exact ⟨|0| + |1 / (w * η)|, by positivity, fun t ht => by rw [hA]; exact key 0 (1 / (w * η)) t ht⟩
    · exact ⟨|0| + |-w / η|, by positivity, fun t ht => by rw [hA]; exact key 0 (-w / η) t ht⟩
    · exact ⟨|1| + |-(1 / (2 * η * q))|, by positivity, fun t ht => by rw [hA]; exact key 1 (-(1 / (2 * η * q))) t ht⟩
  · -- critical
    refine ⟨w / 2, by positivity, .of_nilpotent (d := 2) hw ?_⟩
    rw [h, pow_two, one2, smul2]
    ext i j
    fin_cases i <;> fin_cases j <;> simp [F, Matrix.mul_apply, Fin.sum_univ_two] <;> ring
  · -- underdamped
    set η := eta q with hη
    refine ⟨0.5 * w / q, by positivity, ?_⟩
    have key : ∀ a b t : ℝ, |Real.exp (-0.5 * w * t / q) * (a * Real.cos (η * w * t) + b * Real.sin (η * w * t))| ≤
        (|a| + |b|) * Real.exp (-(0.5 * w / q) * t) := by
      intro a b t
      rw [abs_mul, abs_of_pos (Real.exp_pos _), show -(0.5 * w / q) * t = -0.5 * w * t / q by ring]
      have h1 : |a * Real.cos (η * w * t) + b * Real.sin (η * w * t)| ≤ |a| + |b| := by
        refine (abs_add_le _ _).trans ?_
        rw [abs_mul, abs_mul]
        exact add_le_add (mul_le_of_le_one_right (abs_nonneg _) (Real.abs_cos_le_one _))
          (mul_le_of_le_one_right (abs_nonneg _) (Real.abs_sin_le_one _))
      rw [mul_comm]
      exact mul_le_mul_of_nonneg_right h1 (Real.exp_pos _).le
    have hA : ∀ t : ℝ, NormedSpace.exp (t • F w q) =
        !![Real.exp (-0.5 * w * t / q) * (1 * Real.cos (η * w * t) + 1 / (2 * η * q) * Real.sin (η * w * t)),
           Real.exp (-0.5 * w * t / q) * (0 * Real.cos (η * w * t) + 1 / (w * η) * Real.sin (η * w * t));
           Real.exp (-0.5 * w * t / q) * (0 * Real.cos (η * w * t) + -w / η * Real.sin (η * w * t)),
           Real.exp (-0.5 * w * t / q) * (1 * Real.cos (η * w * t) + -(1 / (2 * η * q)) * Real.sin (η * w * t))] := by
      intro t
      rw [← Aunder_expm hw.ne' h]
      simp only [Aunder, smul2, ← hη]
      refine ext2 ?_ ?_ ?_ ?_ <;> ring
    refine .of_entries fun i j => ?_
    fin_cases i <;> fin_cases j
    · exact ⟨|1| + |1 / (2 * η * q)|, by positivity, fun t ht => by rw [hA]; exact key 1 (1 / (2 * η * q)) t⟩
    · exact ⟨|0| + |1 / (w * η)|, by positivity, fun t ht => by rw [hA]; exact key 0 (1 / (w * η)) t⟩
    · exact ⟨|0| + |-w / η|, by positivity, fun t ht => by rw [hA]; exact key 0 (-w / η) t⟩
    · exact ⟨|1| + |-(1 / (2 * η * q))|, by positivity, fun t ht => by rw [hA]; exact key 1 (-(1 / (2 * η * q))) t⟩

end SHO

theorem ExpSineSquared.sumTerms_bound (omega scale : ℝ) (J : ℕ) : ExpBound (ExpSineSquared.sumTerms omega scale J).F 0 := by
  induction J with
  | zero => exact ExpBound.rotation _
  | succ j ih => exact ih.blockDiag (ExpBound.rotation _)

/-- the transition matrices of every exported kernel are bounded forward in time -/
theorem Leaf.expBound {ok : ℝ → Prop} {k : SSM} (h : Leaf ok k) : ExpBound k.F 0 := by
  cases h with
  | exp hs => exact (Exp.expBound hs).mono (by positivity)
  | @matern32 scale _ _ hs =>
    have hl : 0 < Matern32.lam scale := by unfold Matern32.lam; positivity
    exact (Matern32.expBound hl).mono (by positivity)
  | @matern52 scale _ _ hs =>
    have hl : 0 < Matern52.lam scale := by unfold Matern52.lam; positivity
    exact (Matern52.expBound hl).mono (by positivity)
  | matern hd hs => exact (ExpBound.of_nilpotent (Matern.lam_pos hd hs) (Matern.nilpotent _ _)).mono (by have := Matern.lam_pos hd hs; positivity)
  | cosine hs => exact ExpBound.rotation _
  | expSineSquared hp hg => exact ExpSineSquared.sumTerms_bound _ _ _
  | sho hw hq ok =>
    obtain ⟨a, ha, h⟩ := SHO.expBound hw hq
    exact h.mono ha.le

theorem Combos.expBound {ok : ℝ → Prop} {k : SSM} (h : Combos (Leaf ok) k) : ExpBound k.F 0 := by
  induction h with
  | leaf h => exact h.expBound
  | sum _ _ h1 h2 => exact h1.blockDiag h2
  | prod _ _ h1 h2 => exact (h1.kron h2).mono (by norm_num)
  | scale _ _ h => exact h

end Verif
