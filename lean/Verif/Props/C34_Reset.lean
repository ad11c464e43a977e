import Verif.Props.C56_Simultaneous

/-!
# C34, C35, C25: resets, observation rows and values of integrated kernels
-/

namespace Verif
open Matrix Kronecker

section
variable (name : String) (m : ℕ) (base : SSM) (first : base.n) (phibar : ℝ → ℝ → Matrix base.n base.n ℝ) (q12 : ℝ → ℝ → base.n → ℝ)
  (q22 : ℝ → ℝ → ℝ)

local notation "K" => integratedSSM name m base first phibar q12 q22

/-! ### C34: resets -/

/-- **C34.** For an integrated kernel with instruments `0, ..., m`, starting an exposure on instrument `i` leaves the latent state `x` as
it is, sets the integral of instrument `i` to zero and leaves those of the other instruments. -/
theorem C34_reset (i : ℕ) (hi : i ≤ m) (x : base.n → ℝ) (z : Fin (m + 1) → ℝ) :
    (K).reset i *ᵥ (Sum.elim x z : base.n ⊕ Fin (m + 1) → ℝ) = Sum.elim x (Function.update z ⟨i, by omega⟩ 0) := by
  have hs : slot m i = ⟨i, by omega⟩ := Fin.ext (by show min (i : ℤ).toNat m = i; rw [Int.toNat_natCast]; omega)
  have : Matrix.diagonal (Sum.elim (fun _ : base.n => (1 : ℝ)) fun j => if j = slot m i then 0 else 1) *ᵥ
      (Sum.elim x z : base.n ⊕ Fin (m + 1) → ℝ) = Sum.elim x (Function.update z ⟨i, by omega⟩ 0) := by
    funext a
    rw [Matrix.mulVec_diagonal, hs]
    rcases a with a | j
    · simp
    · by_cases h : j = ⟨i, by omega⟩
      · subst h; simp
      · simp [h]
  exact this

/-- **C34, the part that fails.** An instrument index beyond the last instrument is not rejected: it resets the last instrument. -/
theorem C34_out_of_range_resets_last (i : ℕ) (hi : m < i) : (K).reset i = (K).reset m := by
  have hs : slot m i = slot m m := Fin.ext (by show min (i : ℤ).toNat m = min (m : ℤ).toNat m; simp; omega)
  have : Matrix.diagonal (Sum.elim (fun _ : base.n => (1 : ℝ)) fun j => if j = slot m i then 0 else 1) =
      Matrix.diagonal (Sum.elim (fun _ : base.n => (1 : ℝ)) fun j => if j = slot m m then 0 else 1) := by rw [hs]
  exact this

/-- so that an exposure on instrument 7 of a kernel with instruments 0 and 1 wipes the integral of instrument 1 -/
example (x z0 z1 : ℝ) : (integratedExp 1 1 1).reset 7 *ᵥ (Sum.elim ![x] ![z0, z1] : Fin 1 ⊕ Fin 2 → ℝ) = Sum.elim ![x] ![z0, 0] := by
  have h := C34_out_of_range_resets_last "IntegratedExp" 1 (expKernel 1 1) (0 : Fin 1) (defaultPhibar _)
    (defaultQ12 (expKernel 1 1) (0 : Fin 1)) (defaultQ22 (expKernel 1 1) (0 : Fin 1)) 7 (by omega)
  have h' := C34_reset "IntegratedExp" 1 (expKernel 1 1) (0 : Fin 1) (defaultPhibar _)
    (defaultQ12 (expKernel 1 1) (0 : Fin 1)) (defaultQ22 (expKernel 1 1) (0 : Fin 1)) 1 le_rfl ![x] ![z0, z1]
  have e : Function.update ![z0, z1] (1 : Fin 2) 0 = ![z0, 0] := by funext i; fin_cases i <;> simp
  exact (congrArg (fun M : Matrix (Fin 1 ⊕ Fin 2) (Fin 1 ⊕ Fin 2) ℝ => M *ᵥ (Sum.elim ![x] ![z0, z1] : Fin 1 ⊕ Fin 2 → ℝ)) h).trans
    (h'.trans (congrArg (Sum.elim (![x] : Fin 1 → ℝ)) e))

/-! ### C35: observation rows -/

/-- **C35.** The measurement predicted for a coordinate: the integral of its instrument divided by the exposure length, or the latent
value if the exposure has no length or the coordinate is a bare time. Nothing else enters. -/
theorem C35_observation (c : Coord) (h0 : 0 ≤ c.inst) (h1 : c.inst ≤ m) (x : base.n → ℝ) (z : Fin (m + 1) → ℝ) :
    ((K).obsModel c none *ᵥ (Sum.elim x z : base.n ⊕ Fin (m + 1) → ℝ)) 0 =
      if 0 < c.delta then z ⟨c.inst.toNat, by omega⟩ / c.delta else x first := by
  have e : (K).obsModel c none = integratedSSM.obs m base first c := defaultObs_none _ _ _
  have : (integratedSSM.obs m base first c *ᵥ (Sum.elim x z : base.n ⊕ Fin (m + 1) → ℝ)) 0 =
      if 0 < c.delta then z ⟨c.inst.toNat, by omega⟩ / c.delta else x first := by
    have lat : ∑ a, (Sum.elim (fun a => if a = first then (1 : ℝ) else 0) (fun _ => 0) : base.n ⊕ Fin (m + 1) → ℝ) a *
        (Sum.elim x z : base.n ⊕ Fin (m + 1) → ℝ) a = x first := by
      simp [Fintype.sum_sum_type]
    cases c with
    | time t =>
      rw [if_neg (by simp [Coord.delta])]
      exact lat
    | exposure t d i =>
      by_cases hd : 0 < d
      · have hs : slot m i = ⟨i.toNat, by simp only [Coord.inst] at h1; omega⟩ :=
          Fin.ext (by show min i.toNat m = i.toNat; simp only [Coord.inst] at h1; omega)
        rw [if_pos (by simpa [Coord.delta] using hd)]
        show ∑ a, (if d > 0 then Sum.elim (fun _ => 0) fun j => if j = slot m i then 1 / d else 0
          else Sum.elim (fun a => if a = first then 1 else 0) fun _ => 0 : base.n ⊕ Fin (m + 1) → ℝ) a * _ = _
        rw [if_pos hd, hs]
        simp [Fintype.sum_sum_type, Coord.delta, Coord.inst]
        ring
      · rw [if_neg (by simpa [Coord.delta] using hd)]
        show ∑ a, (if d > 0 then Sum.elim (fun _ => 0) fun j => if j = slot m i then 1 / d else 0
          else Sum.elim (fun a => if a = first then 1 else 0) fun _ => 0 : base.n ⊕ Fin (m + 1) → ℝ) a * _ = _
        rw [if_neg hd]
        exact lat
  rw [← this]
  exact congrFun (congrArg (fun M : Matrix (Fin 1) (base.n ⊕ Fin (m + 1)) ℝ => M *ᵥ (Sum.elim x z : base.n ⊕ Fin (m + 1) → ℝ)) e) 0

end

/-! ### C34 for sums -/

/-- **C34.** Instantaneous kernels, and sums, products and multiples of them, have nothing to reset. -/
theorem C34_instantaneous (k : SSM) (hk : Combos (Leaf SHO.Any) k) (i : ℤ) : k.reset i = 1 := by
  induction hk with
  | leaf h =>
    cases h with
    | @expSineSquared period gamma sigma order name hp hg =>
      have : ∀ j, (ExpSineSquared.sumTerms (2 * Real.pi / period) (2 / gamma) j).reset i = 1 := by
        intro j
        induction j with
        | zero => rfl
        | succ j ih => exact (congrArg (blockDiag · (1 : Matrix (Fin 2) (Fin 2) ℝ)) ih).trans blockDiag_one
      exact this _
    | _ => rfl
  | sum _ _ h1 h2 => exact (congrArg₂ blockDiag h1 h2).trans blockDiag_one
  | prod _ _ h1 h2 => exact (congrArg₂ (fun a b => a ⊗ₖ b) h1 h2).trans one_kronecker_one
  | scale _ _ h => exact h

/-- **C34.** Resets are idempotent and commute, for any combination of integrated and instantaneous kernels. -/
theorem C34_idempotent_commute (k : SSM) (hk : Combos (fun k => Leaf SHO.Any k ∨ IntLeaf SHO.Any k) k) (i j : ℤ) :
    k.reset i * k.reset i = k.reset i ∧ k.reset i * k.reset j = k.reset j * k.reset i := by
  have diag : ∀ (n : Type) [Fintype n] [DecidableEq n] (m : ℕ), let D := fun i : ℤ => Matrix.diagonal (Sum.elim (fun _ : n => (1 : ℝ))
      fun j => if j = slot m i then 0 else 1); D i * D i = D i ∧ D i * D j = D j * D i := by
    intro n _ _ m
    simp only [Matrix.diagonal_mul_diagonal]
    constructor
    · congr 1; funext a; rcases a with a | a <;> simp
    · congr 1; funext a; exact mul_comm _ _
  induction hk with
  | leaf h =>
    rcases h with h | h
    · have e := fun i => C34_instantaneous _ (.leaf h) i
      rw [e i, e j]
      exact ⟨Matrix.mul_one _, rfl⟩
    · cases h with
      | exp hs => exact diag _ _
      | matern32 hs => exact diag _ _
      | matern52 hs => exact diag _ _
      | cosine hs => exact diag _ _
      | sho hw hq ok => exact diag _ _
  | @sum k1 k2 _ _ h1 h2 =>
    refine ⟨(blockDiag_mul _ _ _ _).trans (congrArg₂ blockDiag h1.1 h2.1), ?_⟩
    exact (blockDiag_mul _ _ _ _).trans ((congrArg₂ blockDiag h1.2 h2.2).trans (blockDiag_mul _ _ _ _).symm)
  | @prod k1 k2 _ _ h1 h2 =>
    refine ⟨(mul_kronecker_mul _ _ _ _).symm.trans (congrArg₂ (fun a b => a ⊗ₖ b) h1.1 h2.1), ?_⟩
    exact (mul_kronecker_mul _ _ _ _).symm.trans ((congrArg₂ (fun a b => a ⊗ₖ b) h1.2 h2.2).trans (mul_kronecker_mul _ _ _ _))
  | scale _ _ h => exact h

example : ((integratedSHO 1 3 2 4).sum (matern32 1 1)).reset 2 * ((integratedSHO 1 3 2 4).sum (matern32 1 1)).reset 3 =
    ((integratedSHO 1 3 2 4).sum (matern32 1 1)).reset 3 * ((integratedSHO 1 3 2 4).sum (matern32 1 1)).reset 2 :=
  (C34_idempotent_commute _ (.sum (.leaf (.inr (.sho one_pos three_pos trivial))) (.leaf (.inl (.matern32 one_pos)))) 2 3).2

/-- **C34 in terms of what is observed**: right after the start of an exposure on instrument `i`, the average measured so far by that
instrument is zero, and what every other coordinate observes (other instruments, the latent process) is unchanged — for every sum of
integrated kernels and every component of it. -/
theorem C34_reset_observed (k : SSM) (κ : ℝ → ℝ) (m : ℕ) (p : ℝ → Prop) (hk : IntegratedSum p m k κ) (component : Option String)
    (i : ℤ) (hi : 0 ≤ i) (hi' : i ≤ m) (c : Coord) (h0 : 0 ≤ c.inst) (h1 : c.inst ≤ m) :
    k.obsModel c component * k.reset i = if 0 < c.delta ∧ c.inst = i then 0 else k.obsModel c component := by
  have leaf : ∀ (name : String) (m' : ℕ) (base : SSM) (first : base.n), m ≤ m' →
      defaultObsModel name (integratedSSM.obs m' base first) c component *
        Matrix.diagonal (Sum.elim (fun _ : base.n => (1 : ℝ)) fun j => if j = slot m' i then 0 else 1) =
      if 0 < c.delta ∧ c.inst = i then 0 else defaultObsModel name (integratedSSM.obs m' base first) c component := by
    intro name m' base first hm
    have key : integratedSSM.obs m' base first c *
        Matrix.diagonal (Sum.elim (fun _ : base.n => (1 : ℝ)) fun j => if j = slot m' i then 0 else 1) =
        if 0 < c.delta ∧ c.inst = i then 0 else integratedSSM.obs m' base first c := by
      cases c with
      | time t =>
        rw [if_neg (by simp [Coord.delta])]
        ext a b
        rw [Matrix.mul_diagonal]
        rcases b with b | b <;> simp [integratedSSM.obs]
      | exposure t d j =>
        simp only [Coord.inst] at h0 h1
        have hslot : slot m' j = slot m' i ↔ j = i := by
          refine ⟨fun h => ?_, fun h => by rw [h]⟩
          have := congrArg Fin.val h
          simp only [slot] at this
          omega
        by_cases h : 0 < (Coord.exposure t d j).delta ∧ (Coord.exposure t d j).inst = i
        · rw [if_pos h]
          simp only [Coord.delta, Coord.inst] at h
          obtain ⟨hd, hji⟩ := h
          subst hji
          ext a b
          rw [Matrix.mul_diagonal]
          rcases b with b | b
          · simp [integratedSSM.obs, hd]
          · by_cases hb : b = slot m' j <;> simp [integratedSSM.obs, hd, hb]
        · rw [if_neg h]
          simp only [Coord.delta, Coord.inst] at h
          ext a b
          rw [Matrix.mul_diagonal]
          rcases b with b | b
          · simp
          · by_cases hb : b = slot m' i
            · by_cases hd : 0 < d
              · have : b ≠ slot m' j := fun h' => h ⟨hd, hslot.1 (h'.symm.trans hb)⟩
                have h2 : slot m' i ≠ slot m' j := hb ▸ this
                simp [integratedSSM.obs, hd, hb, h2]
              · simp [integratedSSM.obs, hd, hb]
            · simp [hb]
    unfold defaultObsModel
    rw [Matrix.smul_mul, key]
    split_ifs
    · exact smul_zero _
    · rfl
  induction hk with
  | exp hs hm => exact leaf _ _ _ _ hm
  | matern32 hs hm => exact leaf _ _ _ _ hm
  | matern52 hs hm => exact leaf _ _ _ _ hm
  | cosine hs hm => exact leaf _ _ _ _ hm
  | sho hw hq ok hm => exact leaf _ _ _ _ hm
  | @sum k1 k2 κ1 κ2 _ _ h1 h2 =>
    have e : hstack (k1.obsModel c component) (k2.obsModel c component) * blockDiag (k1.reset i) (k2.reset i) =
        if 0 < c.delta ∧ c.inst = i then 0 else hstack (k1.obsModel c component) (k2.obsModel c component) := by
      have : hstack (k1.obsModel c component) (k2.obsModel c component) * blockDiag (k1.reset i) (k2.reset i) =
          hstack (k1.obsModel c component * k1.reset i) (k2.obsModel c component * k2.reset i) := by
        unfold hstack blockDiag
        rw [Matrix.fromCols_mul_fromBlocks]
        simp
      rw [this, h1, h2]
      split_ifs
      · exact Matrix.fromCols_zero
      · rfl
    exact e

/-- in the sum of an SHO and a Matérn kernel integrated by two instruments, a start on instrument 1 empties an exposure of length 2 on it,
and leaves one on instrument 0 and the latent value alone -/
example : let k := (integratedSHO 1 3 2 1).sum (integratedMatern32 1 2 1)
    k.obsModel (.exposure 5 2 1) none * k.reset 1 = 0 ∧
    k.obsModel (.exposure 5 2 0) none * k.reset 1 = k.obsModel (.exposure 5 2 0) none ∧
    k.obsModel (.time 5) none * k.reset 1 = k.obsModel (.time 5) none := by
  have hk : IntegratedSum SHO.Any 1 ((integratedSHO 1 3 2 1).sum (integratedMatern32 1 2 1))
      (fun x => Spec.covSHO 1 3 2 x + Spec.covMatern32 1 2 x) := by
    refine .sum (.sho ?_ ?_ ?_ ?_) (.matern32 ?_ ?_) <;> first | exact trivial | norm_num
  refine ⟨?_, ?_, ?_⟩
  · exact (C34_reset_observed _ _ _ _ hk none 1 (by norm_num) (by norm_num) (.exposure 5 2 1) (by norm_num [Coord.inst])
      (by norm_num [Coord.inst])).trans (if_pos (by norm_num [Coord.delta, Coord.inst]))
  · exact (C34_reset_observed _ _ _ _ hk none 1 (by norm_num) (by norm_num) (.exposure 5 2 0) (by norm_num [Coord.inst])
      (by norm_num [Coord.inst])).trans (if_neg (by norm_num [Coord.delta, Coord.inst]))
  · exact (C34_reset_observed _ _ _ _ hk none 1 (by norm_num) (by norm_num) (.time 5) (by norm_num [Coord.inst])
      (by norm_num [Coord.inst])).trans (if_neg (by norm_num [Coord.delta, Coord.inst]))

/-! ### C25: values of integrated kernels -/

/-- a row picking the base component -/
abbrev rowX : Matrix (Fin 1) (Fin 1 ⊕ Fin 1) ℝ := fromCols 1 0
/-- a row picking the exposure slot -/
abbrev rowZ : Matrix (Fin 1) (Fin 1 ⊕ Fin 1) ℝ := fromCols 0 1

/-- the value of a model in the two orders, for an earlier latent value and a later exposure of length one -/
theorem evaluate_blocks (a P q : Matrix (Fin 1) (Fin 1) ℝ) :
    (rowZ * (fromBlocks P 0 0 1 : Matrix (Fin 1 ⊕ Fin 1) (Fin 1 ⊕ Fin 1) ℝ) * (fromBlocks a 0 q 1)ᵀ * rowXᵀ :
      Matrix (Fin 1) (Fin 1) ℝ) = 0 ∧
    (rowZ * fromBlocks a 0 q 1 * (fromBlocks P 0 0 1 : Matrix (Fin 1 ⊕ Fin 1) (Fin 1 ⊕ Fin 1) ℝ) * rowXᵀ :
      Matrix (Fin 1) (Fin 1) ℝ) = q * P := by
  constructor
  · rw [fromBlocks_transpose, fromCols_mul_fromBlocks, fromCols_mul_fromBlocks, transpose_fromCols, fromCols_mul_fromRows]
    simp
  · rw [fromCols_mul_fromBlocks, fromCols_mul_fromBlocks, transpose_fromCols, fromCols_mul_fromRows]
    simp

/-- **C25, the part that fails.** The value of an integrated kernel depends on the order of its arguments: between a latent value and a
later exposure it is zero one way round and not the other. -/
theorem C25_integrated_not_symmetric : ∃ X1 X2 : Coord, (integratedExp 1 1 0).evaluate X1 X2 ≠ (integratedExp 1 1 0).evaluate X2 X1 := by
  refine ⟨.exposure 0 0 0, .exposure 1 1 0, ?_⟩
  have hz : (integratedExp 1 1 0).obsModel (.exposure 1 1 0) none = rowZ := by
    show (1 : ℝ) • integratedSSM.obs 0 (expKernel 1 1) (0 : Fin 1) (.exposure 1 1 0) = _
    rw [one_smul]
    funext a b
    rcases b with b | b
    · simp only [integratedSSM.obs, gt_iff_lt, zero_lt_one, if_true]; rfl
    · have hb : b = slot 0 0 := Subsingleton.elim (α := Fin 1) _ _
      have hab : a = b := Subsingleton.elim (α := Fin 1) _ _
      simp only [integratedSSM.obs, gt_iff_lt, zero_lt_one, if_true]
      refine Eq.trans (if_pos hb) ?_
      show (1 : ℝ) / 1 = (1 : Matrix (Fin 1) (Fin 1) ℝ) a b
      rw [hab, one_apply_eq, div_one]
  have hx : (integratedExp 1 1 0).obsModel (.exposure 0 0 0) none = rowX := by
    show (1 : ℝ) • integratedSSM.obs 0 (expKernel 1 1) (0 : Fin 1) (.exposure 0 0 0) = _
    rw [one_smul]
    funext a b
    rcases b with b | b
    · have hb : b = (0 : Fin 1) := Subsingleton.elim (α := Fin 1) _ _
      have hab : a = b := Subsingleton.elim (α := Fin 1) _ _
      simp only [integratedSSM.obs, gt_iff_lt, lt_irrefl, if_false]
      refine Eq.trans (if_pos hb) ?_
      show (1 : ℝ) = (1 : Matrix (Fin 1) (Fin 1) ℝ) a b
      exact (by rw [show (b : Fin 1) = a from hab.symm, one_apply_eq] : (1 : ℝ) = (1 : Matrix (Fin 1) (Fin 1) ℝ) a b)
    · simp only [integratedSSM.obs, gt_iff_lt, lt_irrefl, if_false]; rfl
  have hphi : PhibarFromVanLoan (!![-(1 / 1)] : Matrix (Fin 1) (Fin 1) ℝ) (1 - 0) 0 0 = 1 - Real.exp (-1) := by
    rw [C31_phibar, sub_zero]
    have : ∀ s : ℝ, NormedSpace.exp (s • (!![-(1 / 1)] : Matrix (Fin 1) (Fin 1) ℝ)) 0 0 = Real.exp (-s) := by
      intro s
      rw [← Exp.A_expm 1]
      simp [Exp.A]
    simp only [this]
    rw [intervalIntegral.integral_comp_neg (fun x => Real.exp x)]
    simp
  obtain ⟨h1, h2⟩ := evaluate_blocks (Exp.A 1 (1 - 0)) ((1 : ℝ) ^ 2 • !![1])
    (of fun _ j => PhibarFromVanLoan (!![-(1 / 1)] : Matrix (Fin 1) (Fin 1) ℝ) (1 - 0) 0 j)
  have e1 : (integratedExp 1 1 0).evaluate (.exposure 0 0 0) (.exposure 1 1 0) = 0 := by
    unfold SSM.evaluate
    rw [hz, hx, if_pos (by simp [Coord.sortable])]
    exact congrFun₂ h1 0 0
  have e2 : (integratedExp 1 1 0).evaluate (.exposure 1 1 0) (.exposure 0 0 0) = 1 - Real.exp (-1) := by
    unfold SSM.evaluate
    rw [hz, hx, if_neg (by simp [Coord.sortable])]
    refine Eq.trans (congrFun₂ h2 0 0) ?_
    rw [← hphi]
    simp [Matrix.mul_apply]
  rw [e1, e2]
  have : Real.exp (-1) < 1 := by rw [Real.exp_lt_one_iff]; norm_num
  intro h; linarith

end Verif
