import Verif.Spec.Parts
import Verif.Lemmas.GaussianAverages

/-!
# Sums of independent Gaussian processes
-/

namespace Verif
open MeasureTheory ProbabilityTheory Matrix Spec Filter
open scoped ENNReal NNReal

variable {Ω : Type*} [MeasurableSpace Ω] {P : Measure Ω}

/-- for a centred Gaussian vector, the regression formulas describe the conditional distribution -/
theorem isPosterior_of_gaussian {ι : Type*} [Fintype ι] [DecidableEq ι] [IsFiniteMeasure P] {F : Ω → ℝ} {Y : ι → Ω → ℝ} {K : Matrix ι ι ℝ}
    {c : ι → ℝ} {v : ℝ} (hFY : HasGaussianLaw (fun ω => (F ω, fun i => Y i ω)) P) (hF0 : P[F] = 0) (h0 : ∀ i, P[Y i] = 0)
    (hc : ∀ i j, cov[Y i, Y j; P] = K i j) (hFc : ∀ i, cov[F, Y i; P] = c i) (hFv : Var[F; P] = v) (hK : K.PosDef) :
    IsPosterior P F Y (fun y => postMean K y c) (postVar K v c) := by
  have hmse := gaussian_mse hFY hF0 h0 hc hFc hFv hK
  refine ⟨(gaussian_residual hFY hF0 h0 hc hFc hFv hK).2.2, gaussian_condDistrib hFY hF0 h0 hc hFc hFv hK,
    fun hv z => gaussian_coverage hFY hF0 h0 hc hFc hFv hK hv z, hmse.1, fun a ha ha2 => ?_⟩
  rw [hmse.2 a ha ha2]
  exact le_add_of_nonneg_right (integral_nonneg fun ω => sq_nonneg _)

section
variable {ι : Type*} [Fintype ι] {κ : ι → ℝ → ℝ → ℝ} {T : Set ℝ} {f : ι → ℝ → Ω → ℝ} {t R : Arr ℝ} {Y : Fin t.len → Ω → ℝ}

theorem Spec.SumMeasured.isProbabilityMeasure [Nonempty ι] (h : SumMeasured P κ T f t R Y) : IsProbabilityMeasure P :=
  (h.gaussian (Classical.arbitrary ι)).isProbabilityMeasure

/-- the measurements and the sum of some of the processes are jointly Gaussian -/
theorem Spec.SumMeasured.joint (h : SumMeasured P κ T f t R Y) (S : Finset ι) {s : ℝ} (hs : s ∈ T) :
    HasGaussianLaw (fun ω => (∑ l ∈ S, f l s ω, fun i => Y i ω)) P := by
  set τ : Option (Fin t.len) → T := fun o => o.elim (⟨s, hs⟩ : T) fun i => ⟨t.get i, h.times i i.2⟩ with hτ
  have hZl : ∀ l, HasGaussianLaw (fun ω (o : Option (Fin t.len)) => f l (τ o) ω) P := fun l => gaussianProcess_vector (h.gaussian l) τ
  have hr : Measurable fun (z : T → ℝ) (o : Option (Fin t.len)) => z (τ o) := measurable_pi_lambda _ fun o => measurable_pi_apply _
  have hZ : HasGaussianLaw (fun ω l (o : Option (Fin t.len)) => f l (τ o) ω) P :=
    iIndepFun.hasGaussianLaw hZl (h.parts_independent.comp (fun _ z o => z (τ o)) fun _ => hr)
  have he : HasGaussianLaw (fun ω (i : Fin t.len) => Y i ω - ∑ l, f l (t.get i) ω) P :=
    iIndepFun.hasGaussianLaw (fun i => (h.error_law i).hasGaussianLaw) h.errors_independent
  have hi := h.independent.comp (φ := fun (z : ι → T → ℝ) l (o : Option (Fin t.len)) => z l (τ o)) (ψ := id)
    (measurable_pi_lambda _ fun l => hr.comp (measurable_pi_apply l)) measurable_id
  have hj := IndepFun.hasGaussianLaw hZ he hi
  set L : ((ι → Option (Fin t.len) → ℝ) × (Fin t.len → ℝ)) →ₗ[ℝ] ℝ × (Fin t.len → ℝ) :=
    { toFun := fun p => (∑ l ∈ S, p.1 l none, fun i => ∑ l, p.1 l (some i) + p.2 i)
      map_add' := fun p q => by
        refine Prod.ext ?_ (funext fun i => ?_)
        · exact Finset.sum_add_distrib
        · show ∑ l, (p.1 l (some i) + q.1 l (some i)) + (p.2 i + q.2 i) = (∑ l, p.1 l (some i) + p.2 i) + (∑ l, q.1 l (some i) + q.2 i)
          rw [Finset.sum_add_distrib]
          ring
      map_smul' := fun r p => by
        refine Prod.ext ?_ (funext fun i => ?_)
        · exact (Finset.mul_sum _ _ _).symm
        · show ∑ l, r * p.1 l (some i) + r * p.2 i = r * (∑ l, p.1 l (some i) + p.2 i)
          rw [← Finset.mul_sum]
          ring } with hL
  refine (hj.map_fun (LinearMap.toContinuousLinearMap L)).congr (Eventually.of_forall fun ω => ?_)
  refine Prod.ext rfl (funext fun i => ?_)
  show ∑ l, f l (t.get i) ω + (Y i ω - ∑ l, f l (t.get i) ω) = Y i ω
  ring

theorem Spec.SumMeasured.moments [DecidableEq ι] [Nonempty ι] (h : SumMeasured P κ T f t R Y) (hR : ∀ i < t.len, 0 ≤ R.get i) :
    (∀ i, P[Y i] = 0) ∧
    (∀ i j, cov[Y i, Y j; P] = noisyGram (fun i j : Fin t.len => ∑ l, κ l (t.get i) (t.get j)) (fun i => R.get i) i j) ∧
    ∀ (S : Finset ι), ∀ s ∈ T, P[fun ω => ∑ l ∈ S, f l s ω] = 0 ∧ Var[fun ω => ∑ l ∈ S, f l s ω; P] = ∑ l ∈ S, κ l s s ∧
      ∀ i, cov[fun ω => ∑ l ∈ S, f l s ω, Y i; P] = ∑ l ∈ S, κ l s (t.get i) := by
  have hP := h.isProbabilityMeasure
  set e : Fin t.len → Ω → ℝ := fun i ω => Y i ω - ∑ l, f l (t.get i) ω with he
  have hX : ∀ i : Fin t.len, t.get i ∈ T := fun i => h.times i i.2
  have hf2 : ∀ l, ∀ s ∈ T, MemLp (f l s) 2 P := fun l s hs => ((h.gaussian l).hasGaussianLaw_eval ⟨s, hs⟩).memLp_two
  have he2 : ∀ i, MemLp (e i) 2 P := fun i => (h.error_law i).hasGaussianLaw.memLp_two
  have he0 : ∀ i, P[e i] = 0 := fun i => by
    show P[fun ω => Y i ω - ∑ l, f l (t.get i) ω] = 0
    rw [(h.error_law i).integral_eq, integral_id_gaussianReal]
  have hev : ∀ i, Var[e i; P] = R.get i := fun i => by
    show Var[fun ω => Y i ω - ∑ l, f l (t.get i) ω; P] = _
    rw [(h.error_law i).variance_eq, variance_id_gaussianReal, Real.coe_toNNReal _ (hR i i.2)]
  have hfe : ∀ l, ∀ s ∈ T, ∀ i, cov[f l s, e i; P] = 0 := fun l s hs i => by
    have hi := h.independent.comp ((measurable_pi_apply (⟨s, hs⟩ : T)).comp (measurable_pi_apply l) : Measurable fun z : ι → T → ℝ => z l ⟨s, hs⟩)
      (measurable_pi_apply i : Measurable fun z : Fin t.len → ℝ => z i)
    exact IndepFun.covariance_eq_zero hi (hf2 l s hs) (he2 i)
  have hff : ∀ l l', ∀ s ∈ T, ∀ s' ∈ T, cov[f l s, f l' s'; P] = if l = l' then κ l s s' else 0 := fun l l' s hs s' hs' => by
    split_ifs with hl
    · rw [← hl, h.cov l s hs s' hs']
    · have hi := (h.parts_independent.indepFun hl).comp (measurable_pi_apply (⟨s, hs⟩ : T) : Measurable fun z : T → ℝ => z ⟨s, hs⟩)
        (measurable_pi_apply (⟨s', hs'⟩ : T) : Measurable fun z : T → ℝ => z ⟨s', hs'⟩)
      exact IndepFun.covariance_eq_zero hi (hf2 l s hs) (hf2 l' s' hs')
  have hee : ∀ i j, cov[e i, e j; P] = if i = j then R.get i else 0 := fun i j => by
    split_ifs with hij
    · rw [← hij, covariance_self (he2 i).aemeasurable, hev]
    · exact IndepFun.covariance_eq_zero (h.errors_independent.indepFun hij) (he2 i) (he2 j)
  have hg2 : ∀ (S : Finset ι), ∀ s ∈ T, MemLp (fun ω => ∑ l ∈ S, f l s ω) 2 P := fun S s hs => memLp_finsetSum S fun l _ => hf2 l s hs
  have hg0 : ∀ (S : Finset ι), ∀ s ∈ T, P[fun ω => ∑ l ∈ S, f l s ω] = 0 := fun S s hs => by
    rw [integral_finsetSum S fun l _ => (hf2 l s hs).integrable one_le_two]
    exact Finset.sum_eq_zero fun l _ => h.mean l s hs
  have hge : ∀ (S : Finset ι), ∀ s ∈ T, ∀ i, cov[fun ω => ∑ l ∈ S, f l s ω, e i; P] = 0 := fun S s hs i => by
    rw [covariance_fun_sum_left' (fun l _ => hf2 l s hs) (he2 i)]
    exact Finset.sum_eq_zero fun l _ => hfe l s hs i
  have hgg : ∀ (S S' : Finset ι), S ⊆ S' → ∀ s ∈ T, ∀ s' ∈ T,
      cov[fun ω => ∑ l ∈ S, f l s ω, fun ω => ∑ l ∈ S', f l s' ω; P] = ∑ l ∈ S, κ l s s' := fun S S' hS s hs s' hs' => by
    rw [covariance_fun_sum_fun_sum' (fun l _ => hf2 l s hs) fun l _ => hf2 l s' hs']
    refine Finset.sum_congr rfl fun l hl => ?_
    rw [Finset.sum_congr rfl fun l' _ => hff l l' s hs s' hs', Finset.sum_ite_eq, if_pos (hS hl)]
  have hYe : ∀ i, Y i = (fun ω => ∑ l, f l (t.get i) ω) + e i := fun i => by
    funext ω; simp [he]
  refine ⟨fun i => ?_, fun i j => ?_, fun S s hs => ⟨hg0 S s hs, ?_, fun i => ?_⟩⟩
  · rw [hYe]
    show ∫ ω, (∑ l, f l (t.get i) ω + e i ω) ∂P = 0
    rw [integral_add ((hg2 _ _ (hX i)).integrable one_le_two) ((he2 i).integrable one_le_two), hg0 _ _ (hX i), he0, add_zero]
  · rw [hYe i, hYe j, covariance_add_left (hg2 _ _ (hX i)) (he2 i) ((hg2 _ _ (hX j)).add (he2 j)),
      covariance_add_right (hg2 _ _ (hX i)) (hg2 _ _ (hX j)) (he2 j), covariance_add_right (he2 i) (hg2 _ _ (hX j)) (he2 j),
      hgg _ _ (Finset.Subset.refl _) _ (hX i) _ (hX j), hge _ _ (hX i), covariance_comm (e i), hge _ _ (hX j), hee]
    simp [noisyGram]
  · rw [← covariance_self (hg2 S s hs).aemeasurable, hgg _ _ (Finset.Subset.refl _) _ hs _ hs]
  · rw [hYe i, covariance_add_right (hg2 S s hs) (hg2 _ _ (hX i)) (he2 i), hgg _ _ (Finset.subset_univ _) _ hs _ (hX i), hge _ _ hs, add_zero]

/-- **The posterior of a sum of some of the processes.** -/
theorem Spec.SumMeasured.posterior [DecidableEq ι] [Nonempty ι] [IsFiniteMeasure P] (h : SumMeasured P κ T f t R Y)
    (hR : ∀ i < t.len, 0 ≤ R.get i)
    (hK : (noisyGram (fun i j : Fin t.len => ∑ l, κ l (t.get i) (t.get j)) (fun i => R.get i)).PosDef) (S : Finset ι) {s : ℝ} (hs : s ∈ T) :
    IsPosterior P (fun ω => ∑ l ∈ S, f l s ω) Y
      (fun y => postMean (noisyGram (fun i j : Fin t.len => ∑ l, κ l (t.get i) (t.get j)) (fun i => R.get i)) y fun i => ∑ l ∈ S, κ l s (t.get i))
      (postVar (noisyGram (fun i j : Fin t.len => ∑ l, κ l (t.get i) (t.get j)) (fun i => R.get i)) (∑ l ∈ S, κ l s s)
        fun i => ∑ l ∈ S, κ l s (t.get i)) := by
  obtain ⟨h0, hc, hS⟩ := h.moments hR
  obtain ⟨g0, gv, gc⟩ := hS S s hs
  exact isPosterior_of_gaussian (h.joint S hs) g0 h0 hc gc gv hK

end

/-! ### Existence -/

theorem iIndepFun_comp_preserving {Ω' ι : Type*} [MeasurableSpace Ω'] [Fintype ι] {E : ι → Type*} [∀ i, MeasurableSpace (E i)] {μ : Measure Ω'}
    [IsProbabilityMeasure μ] [IsProbabilityMeasure P] {φ : Ω → Ω'} (hφ : MeasurePreserving φ P μ) {X : ∀ i, Ω' → E i} (hX : ∀ i, Measurable (X i))
    (h : iIndepFun X μ) : iIndepFun (fun i ω => X i (φ ω)) P := by
  have hm : ∀ i, Measurable fun ω => X i (φ ω) := fun i => (hX i).comp hφ.measurable
  rw [iIndepFun_iff_map_fun_eq_pi_map fun i => (hm i).aemeasurable]
  rw [iIndepFun_iff_map_fun_eq_pi_map fun i => (hX i).aemeasurable] at h
  have e1 : P.map (fun ω i => X i (φ ω)) = μ.map fun ω i => X i ω := by
    rw [← hφ.map_eq, Measure.map_map (measurable_pi_lambda _ hX) hφ.measurable]
    rfl
  have e2 : ∀ i, P.map (fun ω => X i (φ ω)) = μ.map (X i) := fun i => by
    rw [← hφ.map_eq, Measure.map_map (hX i) hφ.measurable]
    rfl
  rw [e1, h]
  simp_rw [e2]

open scoped MatrixOrder in
/-- **such experiments exist**, for any positive semidefinite covariance functions and any finite set of times -/
theorem exists_sumMeasured {ι : Type} [Fintype ι] (κ : ι → ℝ → ℝ → ℝ) (t R : Arr ℝ) (T : Finset ℝ) (hT : ∀ i < t.len, t.get i ∈ T)
    (hκ : ∀ l, (Matrix.of fun s s' : T => κ l s s').PosSemidef) :
    ∃ (Ω : Type) (_ : MeasurableSpace Ω) (P : Measure Ω) (f : ι → ℝ → Ω → ℝ) (Y : Fin t.len → Ω → ℝ), IsProbabilityMeasure P ∧
      SumMeasured P κ (T : Set ℝ) f t R Y := by
  classical
  have hB : ∀ l, ∃ B : Matrix T T ℝ, (Matrix.of fun s s' : T => κ l s s') = Bᵀ * B := fun l => by
    obtain ⟨B, hB⟩ := CStarAlgebra.nonneg_iff_eq_star_mul_self.mp (hκ l).nonneg
    rw [star_eq_conjTranspose, conjTranspose_eq_transpose_of_trivial] at hB
    exact ⟨B, hB⟩
  choose B hB using hB
  let w : Measure (T → ℝ) := Measure.pi fun _ => gaussianReal 0 1
  let μ : Measure (ι → T → ℝ) := Measure.pi fun _ => w
  let ν : Measure (Fin t.len → ℝ) := Measure.pi fun i => gaussianReal 0 (R.get i).toNNReal
  let f : ι → ℝ → (ι → T → ℝ) × (Fin t.len → ℝ) → ℝ := fun l s ω => if hs : s ∈ T then (B l)ᵀ ⟨s, hs⟩ ⬝ᵥ ω.1 l else 0
  have hgm : ∀ l (s : ℝ), Measurable fun z : T → ℝ => if hs : s ∈ T then (B l)ᵀ ⟨s, hs⟩ ⬝ᵥ z else 0 := by
    intro l s
    by_cases hs : s ∈ T
    · simp only [hs, dif_pos]
      exact (LinearMap.toContinuousLinearMap (dotProductBilin ℝ ℝ ((B l)ᵀ ⟨s, hs⟩))).continuous.measurable
    · simp only [hs, dif_neg, not_false_eq_true]
      exact measurable_const
  have hfT : ∀ l (s : T), f l s = fun ω => (B l)ᵀ s ⬝ᵥ ω.1 l := fun l s => by
    funext ω; simp only [f, dif_pos s.2, Subtype.coe_eta]
  have p1 : MeasurePreserving (Prod.fst : (ι → T → ℝ) × (Fin t.len → ℝ) → _) (μ.prod ν) μ := measurePreserving_fst
  have p2 : MeasurePreserving (Prod.snd : (ι → T → ℝ) × (Fin t.len → ℝ) → _) (μ.prod ν) ν := measurePreserving_snd
  have pl : ∀ l, MeasurePreserving (fun ω : (ι → T → ℝ) × (Fin t.len → ℝ) => ω.1 l) (μ.prod ν) w := fun l =>
    (measurePreserving_eval (fun _ : ι => w) l).comp p1
  have hlaw : ∀ l (s : T), HasLaw (fun ω : (ι → T → ℝ) × (Fin t.len → ℝ) => ω.1 l s) (gaussianReal 0 1) (μ.prod ν) := fun l s =>
    ⟨by fun_prop, ((measurePreserving_eval (fun _ : T => gaussianReal 0 1) s).comp (pl l)).map_eq⟩
  have hind : ∀ l, iIndepFun (fun (s : T) (ω : (ι → T → ℝ) × (Fin t.len → ℝ)) => ω.1 l s) (μ.prod ν) := fun l =>
    iIndepFun_comp_preserving (pl l) (fun s => measurable_pi_apply s)
      (iIndepFun_pi (μ := fun _ : T => gaussianReal 0 1) (X := fun _ x => x) fun _ => aemeasurable_id)
  have hsnd : ∀ i, HasLaw (fun ω : (ι → T → ℝ) × (Fin t.len → ℝ) => ω.2 i) (gaussianReal 0 (R.get i).toNNReal) (μ.prod ν) := fun i =>
    ⟨by fun_prop, ((measurePreserving_eval (fun i : Fin t.len => gaussianReal 0 (R.get i).toNNReal) i).comp p2).map_eq⟩
  have hind2 : iIndepFun (fun (i : Fin t.len) (ω : (ι → T → ℝ) × (Fin t.len → ℝ)) => ω.2 i) (μ.prod ν) :=
    iIndepFun_comp_preserving p2 (fun i => measurable_pi_apply i)
      (iIndepFun_pi (μ := fun i : Fin t.len => gaussianReal 0 (R.get i).toNNReal) (X := fun _ x => x) fun _ => aemeasurable_id)
  have hparts : iIndepFun (fun l (ω : (ι → T → ℝ) × (Fin t.len → ℝ)) => ω.1 l) (μ.prod ν) :=
    iIndepFun_comp_preserving p1 (fun i => measurable_pi_apply i)
      (iIndepFun_pi (μ := fun _ : ι => w) (X := fun _ x => x) fun _ => aemeasurable_id)
  have hW : ∀ l, HasGaussianLaw (fun (ω : (ι → T → ℝ) × (Fin t.len → ℝ)) (s : T) => ω.1 l s) (μ.prod ν) := fun l =>
    iIndepFun.hasGaussianLaw (fun s => (hlaw l s).hasGaussianLaw) (hind l)
  have hWc : ∀ l (s s' : T), cov[fun ω : (ι → T → ℝ) × (Fin t.len → ℝ) => ω.1 l s, fun ω => ω.1 l s'; μ.prod ν] = (1 : Matrix T T ℝ) s s' := by
    intro l s s'
    rw [Matrix.one_apply]
    split_ifs with hst
    · rw [← hst, covariance_self (hlaw l s).aemeasurable, (hlaw l s).variance_eq, variance_id_gaussianReal, NNReal.coe_one]
    · exact IndepFun.covariance_eq_zero ((hind l).indepFun hst) ((hW l).eval s).memLp_two ((hW l).eval s').memLp_two
  have hgv : ∀ l, HasGaussianLaw (fun (ω : (ι → T → ℝ) × (Fin t.len → ℝ)) (s : T) => f l s ω) (μ.prod ν) := fun l => by
    refine ((hW l).map_fun (LinearMap.toContinuousLinearMap (Matrix.toLin' (B l)ᵀ))).congr (Eventually.of_forall fun ω => funext fun s => ?_)
    exact (congrFun (hfT l s) ω).symm
  refine ⟨(ι → T → ℝ) × (Fin t.len → ℝ), inferInstance, μ.prod ν, f, fun i ω => ∑ l, f l (t.get i) ω + ω.2 i, inferInstance,
    ⟨fun l => ⟨fun I => ?_⟩, fun l s hs => ?_, fun l s hs s' hs' => ?_, ?_, hT, fun i => ?_, ?_, ?_⟩⟩
  · exact (hgv l).map_fun (ContinuousLinearMap.pi fun i : I =>
      ContinuousLinearMap.proj (R := ℝ) (φ := fun _ : T => ℝ) (⟨((i : ((T : Set ℝ) : Type)) : ℝ), (i : ((T : Set ℝ) : Type)).2⟩ : T))
  · rw [hfT l ⟨s, hs⟩]
    exact mulVec_mean (Y := fun (s : T) (ω : (ι → T → ℝ) × (Fin t.len → ℝ)) => ω.1 l s) (fun s => ((hW l).eval s).integrable)
      (fun s => by rw [(hlaw l s).integral_eq, integral_id_gaussianReal]) _
  · rw [hfT l ⟨s, hs⟩, hfT l ⟨s', hs'⟩]
    rw [mulVec_cov (Y := fun (s : T) (ω : (ι → T → ℝ) × (Fin t.len → ℝ)) => ω.1 l s) (fun s => ((hW l).eval s).memLp_two) (hWc l), Matrix.one_mulVec]
    exact (congrFun (congrFun (hB l) ⟨s, hs⟩) ⟨s', hs'⟩).symm
  · exact hparts.comp (fun l z (s : ((T : Set ℝ) : Type)) => if hs : (s : ℝ) ∈ T then (B l)ᵀ ⟨s, hs⟩ ⬝ᵥ z else 0)
      fun l => measurable_pi_lambda _ fun s => hgm l s
  · simp only [add_sub_cancel_left]
    exact hsnd i
  · simp only [add_sub_cancel_left]
    exact hind2
  · simp only [add_sub_cancel_left]
    exact indepFun_prod (μ := μ) (ν := ν)
      (X := fun (z : ι → T → ℝ) l (s : ((T : Set ℝ) : Type)) => if hs : (s : ℝ) ∈ T then (B l)ᵀ ⟨s, hs⟩ ⬝ᵥ z l else 0)
      (Y := fun z : Fin t.len → ℝ => z)
      (measurable_pi_lambda _ fun l => measurable_pi_lambda _ fun s => (hgm l s).comp (measurable_pi_apply l)) measurable_id

end Verif
