import Verif.Lemmas.Discrete

/-!
# Inserting an unobserved step into a chain

A chain with an extra, unobserved step `p` whose transition and noise split those of step `p - 1` of the original chain: the filter of
the original chain, with one prediction inserted, is a filter of the longer chain, and one more smoothing step gives the estimate at
the inserted step.
-/

set_option linter.unusedSectionVars false

namespace Verif
open Matrix

/-- a sequence with `s` inserted at position `p` -/
def ins {α : Type*} (p : ℕ) (s : α) (f : ℕ → α) (i : ℕ) : α := if i < p then f i else if i = p then s else f (i - 1)

/-- where element `i` of the original sequence is found -/
def insIdx (p i : ℕ) : ℕ := if i < p then i else i + 1

section
variable {α : Type*} {p : ℕ} {s : α} {f : ℕ → α} {i : ℕ}

theorem ins_lt (h : i < p) : ins p s f i = f i := if_pos h
theorem ins_eq : ins p s f p = s := by unfold ins; rw [if_neg (lt_irrefl p), if_pos rfl]
theorem ins_gt (h : p < i) : ins p s f i = f (i - 1) := by unfold ins; rw [if_neg (by omega), if_neg (by omega)]
theorem ins_succ (h : p ≤ i) : ins p s f (i + 1) = f i := by rw [ins_gt (by omega), Nat.add_sub_cancel]
theorem ins_insIdx : ins p s f (insIdx p i) = f i := by
  unfold insIdx
  split_ifs with h
  · exact ins_lt h
  · exact ins_succ (by omega)

theorem insIdx_ne : insIdx p i ≠ p := by unfold insIdx; split_ifs <;> omega
theorem insIdx_lt_iff {j : ℕ} : insIdx p i < insIdx p j ↔ i < j := by unfold insIdx; split_ifs <;> omega
theorem insIdx_inj {j : ℕ} (h : insIdx p i = insIdx p j) : i = j := by unfold insIdx at h; split_ifs at h <;> omega
theorem insIdx_surj (h : i ≠ p) : ∃ j, i = insIdx p j := by
  rcases lt_or_gt_of_ne h with h | h
  · exact ⟨i, by unfold insIdx; rw [if_pos h]⟩
  · exact ⟨i - 1, by unfold insIdx; rw [if_neg (by omega)]; omega⟩
theorem insIdx_lt_succ {N : ℕ} (hp : p ≤ N) : insIdx p i < N + 1 ↔ i < N := by unfold insIdx; split_ifs <;> omega

end

variable {n : Type*} [Fintype n] [DecidableEq n]
variable {V V' : Type*} [AddCommGroup V] [Module ℝ V] [AddCommGroup V'] [Module ℝ V']
variable {B : LinearMap.BilinForm ℝ V} {φ : V →ₗ[ℝ] ℝ} {B' : LinearMap.BilinForm ℝ V'} {φ' : V' →ₗ[ℝ] ℝ}

/-- `c'` is `c` with an unobserved step inserted at `0 < p ≤ N`, the length of `c` -/
structure Chain.Inserted (c : Chain B φ n) (c' : Chain B' φ' n) (p N : ℕ) : Prop where
  pos : 0 < p
  le : p ≤ N
  x0 : ∀ a b, B' (c'.x 0 a) (c'.x 0 b) = B (c.x 0 a) (c.x 0 b)
  T_lt : ∀ i, i + 1 < p → c'.T i = c.T i
  T_ge : ∀ i, p ≤ i → i + 1 < N → c'.T (i + 1) = c.T i
  T_mid : p < N → c.T (p - 1) = c'.T p * c'.T (p - 1)
  Q_lt : ∀ i, i + 1 < p → c'.Q i = c.Q i
  Q_ge : ∀ i, p ≤ i → i + 1 < N → c'.Q (i + 1) = c.Q i
  Q_mid : p < N → c.Q (p - 1) = c'.T p * c'.Q (p - 1) * (c'.T p)ᵀ + c'.Q p
  isObs : ∀ i, c'.isObs i = ins p false c.isObs i
  H : ∀ i < N, c'.H (insIdx p i) = c.H i
  R : ∀ i < N, c'.R (insIdx p i) = c.R i
  y : ∀ i < N, c'.y (insIdx p i) = c.y i

namespace Chain.Inserted
variable {c : Chain B φ n} {c' : Chain B' φ' n} {p N : ℕ} {mp mf ms : ℕ → n → ℝ} {Pp Pf Ps : ℕ → Matrix n n ℝ}

/-- the inserted prediction -/
def mStar (c' : Chain B' φ' n) (p : ℕ) (mf : ℕ → n → ℝ) : n → ℝ := c'.T (p - 1) *ᵥ mf (p - 1)
def PStar (c' : Chain B' φ' n) (p : ℕ) (Pf : ℕ → Matrix n n ℝ) : Matrix n n ℝ := c'.T (p - 1) * Pf (p - 1) * (c'.T (p - 1))ᵀ + c'.Q (p - 1)

theorem filter (h : c.Inserted c' p N) (f : c.Filter N mp Pp mf Pf) :
    c'.Filter (N + 1) (ins p (mStar c' p mf) mp) (ins p (PStar c' p Pf) Pp) (ins p (mStar c' p mf) mf) (ins p (PStar c' p Pf) Pf) where
  m0 := by rw [ins_lt h.pos, f.m0]
  P0 a b := by rw [ins_lt h.pos, h.x0, f.P0]
  mp_succ k hk := by
    rcases lt_trichotomy (k + 1) p with hlt | heq | hgt
    · rw [ins_lt hlt, ins_lt (by omega), h.T_lt k hlt, f.mp_succ k (by have := h.le; omega)]
    · subst heq
      rw [ins_eq, ins_lt (by omega)]
      rfl
    · rcases (show p = k ∨ p < k by omega) with rfl | hlt
      · rw [ins_succ le_rfl, ins_eq, mStar, mulVec_mulVec, ← h.T_mid (by omega)]
        have := f.mp_succ (p - 1) (by have := h.pos; omega)
        rwa [Nat.sub_add_cancel h.pos] at this
      · obtain ⟨l, rfl⟩ : ∃ l, k = l + 1 := ⟨k - 1, by omega⟩
        rw [ins_succ (by omega), ins_succ (by omega), h.T_ge l (by omega) (by omega), f.mp_succ l (by omega)]
  Pp_succ k hk := by
    rcases lt_trichotomy (k + 1) p with hlt | heq | hgt
    · rw [ins_lt hlt, ins_lt (by omega), h.T_lt k hlt, h.Q_lt k hlt, f.Pp_succ k (by have := h.le; omega)]
    · subst heq
      rw [ins_eq, ins_lt (by omega)]
      rfl
    · rcases (show p = k ∨ p < k by omega) with rfl | hlt
      · rw [ins_succ le_rfl, ins_eq, PStar]
        have := f.Pp_succ (p - 1) (by have := h.pos; omega)
        rw [Nat.sub_add_cancel h.pos] at this
        rw [this, h.T_mid (by omega), h.Q_mid (by omega), transpose_mul]
        simp only [Matrix.mul_add, Matrix.add_mul, Matrix.mul_assoc, add_assoc]
      · obtain ⟨l, rfl⟩ : ∃ l, k = l + 1 := ⟨k - 1, by omega⟩
        rw [ins_succ (by omega), ins_succ (by omega), h.T_ge l (by omega) (by omega), h.Q_ge l (by omega) (by omega), f.Pp_succ l (by omega)]
  upd k hk ho := by
    have hne : k ≠ p := by
      rintro rfl
      rw [h.isObs, ins_eq] at ho
      exact Bool.false_ne_true ho
    obtain ⟨l, rfl⟩ := insIdx_surj hne
    have hl : l < N := (insIdx_lt_succ h.le).1 hk
    rw [h.isObs, ins_insIdx] at ho
    simp only [ins_insIdx, h.H l hl, h.R l hl, h.y l hl]
    exact f.upd l hl ho
  noupd k hk ho := by
    by_cases hne : k = p
    · subst hne
      rw [ins_eq, ins_eq, ins_eq, ins_eq]
      exact ⟨rfl, rfl⟩
    · obtain ⟨l, rfl⟩ := insIdx_surj hne
      rw [h.isObs, ins_insIdx] at ho
      simp only [ins_insIdx]
      exact f.noupd l ((insIdx_lt_succ h.le).1 hk) ho

/-- at the end: the prediction is the estimate -/
theorem est_last (h : c.Inserted c' p N) (hp : p = N) (f : c.Filter N mp Pp mf Pf) :
    ∃ Xh, IsEst B' φ' (c'.U (N + 1)) (c'.x p) Xh (mStar c' p mf) (PStar c' p Pf) := by
  subst hp
  have := (h.filter f).est_filt (k := p) (by omega)
  rwa [ins_eq, ins_eq] at this

/-- in between: one more smoothing step -/
theorem est_mid (h : c.Inserted c' p N) (hp : p < N) (f : c.Filter N mp Pp mf Pf) (s : Smoother c N mp Pp mf Pf ms Ps)
    {G : Matrix n n ℝ} (hG : G * Pp p = PStar c' p Pf * (c'.T p)ᵀ) :
    ∃ Xh, IsEst B' φ' (c'.U (N + 1)) (c'.x p) Xh (mStar c' p mf + G *ᵥ (ms p - mp p)) (PStar c' p Pf + G * (Ps p - Pp p) * Gᵀ) := by
  have h1 : N + 1 - 1 = (N - 1) + 1 := by omega
  have := smooth_from (h.filter f) (s := p) (ms := ins p (mStar c' p mf + G *ᵥ (ms p - mp p)) ms)
    (Ps := ins p (PStar c' p Pf + G * (Ps p - Pp p) * Gᵀ) Ps)
    (by rw [h1, ins_succ (by omega), ins_succ (by omega), s.last_m])
    (by rw [h1, ins_succ (by omega), ins_succ (by omega), s.last_P])
    (fun k hpk hk => by
      rcases (show p = k ∨ p < k by omega) with rfl | hlt
      · simp only [ins_succ le_rfl, ins_eq]
        exact ⟨G, hG, rfl, rfl⟩
      · obtain ⟨l, rfl⟩ : ∃ l, k = l + 1 := ⟨k - 1, by omega⟩
        simp only [ins_succ (show p ≤ l + 1 by omega), ins_succ (show p ≤ l by omega), h.T_ge l (by omega) (by omega)]
        exact s.step l (by omega)) le_rfl (by omega)
  rwa [ins_eq, ins_eq] at this

theorem span {ι : Type*} (h : c.Inserted c' p N) (e : ι ≃ Chain.Obs c N) :
    c'.U (N + 1) = Submodule.span ℝ (Set.range fun i => c'.Y (insIdx p (e i).1)) := by
  rw [U_eq_span]
  congr 1
  ext v
  constructor
  · rintro ⟨j, ⟨hj, ho⟩, rfl⟩
    have hne : j ≠ p := by
      rintro rfl
      rw [h.isObs, ins_eq] at ho
      exact Bool.false_ne_true ho
    obtain ⟨l, rfl⟩ := insIdx_surj hne
    have hl : l < N := (insIdx_lt_succ h.le).1 hj
    rw [h.isObs, ins_insIdx] at ho
    refine ⟨e.symm ⟨⟨l, hl⟩, ho⟩, ?_⟩
    simp
  · rintro ⟨i, rfl⟩
    refine ⟨insIdx p (e i).1, ⟨(insIdx_lt_succ h.le).2 (e i).1.2, ?_⟩, rfl⟩
    rw [h.isObs, ins_insIdx]
    exact (e i).2

end Chain.Inserted
end Verif
