import Verif.Spec.Probability
import Verif.Lemmas.GaussianLaw
import Verif.Lemmas.RiemannSum
import Verif.Lemmas.PosDefFn
import Mathlib.Probability.Distributions.Gaussian.IsGaussianProcess.Basic

/-!
# Averages of a Gaussian process over exposures

Averages of a Gaussian process with continuous paths are jointly Gaussian, and their covariances are the double averages `exposureCov` of
the covariance function.
-/

namespace Verif
open MeasureTheory ProbabilityTheory Matrix Spec Filter Topology
open scoped ENNReal NNReal

variable {Ω : Type*} [MeasurableSpace Ω] {P : Measure Ω} {κ : ℝ → ℝ} {f : ℝ → Ω → ℝ}

/-- a Gaussian process with finitely many times is a Gaussian vector -/
theorem gaussianProcess_vector {ι T : Type*} [Finite ι] {X : T → Ω → ℝ} (h : IsGaussianProcess X P) (t : ι → T) :
    HasGaussianLaw (fun ω i => X (t i) ω) P := by
  have := Fintype.ofFinite ι
  have h1 := (h.comp_right t).hasGaussianLaw Finset.univ
  exact h1.map_fun (ContinuousLinearMap.pi fun i : ι => ContinuousLinearMap.proj (R := ℝ) (φ := fun _ : (Finset.univ : Finset ι) => ℝ) ⟨i, Finset.mem_univ i⟩)

/-- linear combinations of Riemann sums as a linear combination of values -/
theorem riemann_comb {ι : Type*} [Fintype ι] (n : ℕ) (w : ι → ℝ) (g : ι → ℝ → ℝ) :
    ∑ i, w i * riemann n (g i) = (fun p : ι × Fin n => w p.1 * (1 / (n : ℝ))) ⬝ᵥ fun p => g p.1 ((p.2 : ℕ) / n) := by
  rw [dotProduct, Fintype.sum_prod_type]
  refine Finset.sum_congr rfl fun i _ => ?_
  rw [riemann, ← mul_assoc, Finset.mul_sum, ← Fin.sum_univ_eq_sum_range (fun k => w i * (1 / (n : ℝ)) * g i (k / n))]

theorem riemann_comb2 {ι : Type*} [Fintype ι] (n : ℕ) (w : ι → ℝ) (h : ι → ι → ℝ → ℝ → ℝ) :
    ∑ i, w i * ∑ j, w j * riemann n (fun u => riemann n fun v => h i j u v) = (fun p : ι × Fin n => w p.1 * (1 / (n : ℝ))) ⬝ᵥ
      (Matrix.of fun p q : ι × Fin n => h p.1 q.1 ((p.2 : ℕ) / n) ((q.2 : ℕ) / n)) *ᵥ fun p => w p.1 * (1 / (n : ℝ)) := by
  have e : ∀ i, ∑ j, w j * riemann n (fun u => riemann n fun v => h i j u v) = riemann n fun u => ∑ j, w j * riemann n fun v => h i j u v := by
    intro i
    simp only [riemann, Finset.mul_sum]
    rw [Finset.sum_comm]
    refine Finset.sum_congr rfl fun k _ => Finset.sum_congr rfl fun j _ => Finset.sum_congr rfl fun l _ => ?_
    ring
  simp only [e]
  rw [riemann_comb n w fun i u => ∑ j, w j * riemann n fun v => h i j u v]
  refine congrArg _ (funext fun p => ?_)
  rw [riemann_comb n w fun j v => h p.1 j ((p.2 : ℕ) / n) v, dotProduct_comm]
  rfl

/-- **linear combinations of averages are normal variables** -/
theorem Spec.GaussianPaths.comb_law (h : GaussianPaths P κ f) (hκ : Continuous fun u => κ |u|) {ι : Type*} [Fintype ι] (X : ι → Coord) (w : ι → ℝ) :
    HasLaw (fun ω => ∑ i, w i * (X i).average fun s => f s ω)
      (gaussianReal 0 (∑ i, w i * ∑ j, w j * exposureCov κ (X i) (X j)).toNNReal) P ∧
    0 ≤ ∑ i, w i * ∑ j, w j * exposureCov κ (X i) (X j) := by
  classical
  have hP := h.gaussian.isProbabilityMeasure
  set A : ℕ → Ω → ℝ := fun n ω => ∑ i, w i * riemann n fun u => f ((X i).at u) ω with hA
  set V : ℕ → ℝ := fun n => ∑ i, w i * ∑ j, w j * riemann n (fun u => riemann n fun v => κ |(X i).at u - (X j).at v|) with hV
  have hAlim : ∀ ω, Tendsto (fun n => A n ω) atTop (𝓝 (∑ i, w i * (X i).average fun s => f s ω)) := by
    intro ω
    refine tendsto_finsetSum _ fun i _ => Tendsto.const_mul _ ?_
    rw [Coord.average_unit]
    exact riemann_continuous ((h.continuous ω).comp (X i).at_continuous)
  have hVlim : Tendsto V atTop (𝓝 (∑ i, w i * ∑ j, w j * exposureCov κ (X i) (X j))) := by
    refine tendsto_finsetSum _ fun i _ => Tendsto.const_mul _ (tendsto_finsetSum _ fun j _ => Tendsto.const_mul _ ?_)
    rw [exposureCov_unit]
    exact riemann_double (hκ.comp (((X i).at_continuous.comp continuous_fst).sub ((X j).at_continuous.comp continuous_snd)))
  have hlaw : ∀ n, HasLaw (A n) (gaussianReal 0 (V n).toNNReal) P ∧ 0 ≤ V n := by
    intro n
    have hY : HasGaussianLaw (fun ω (p : ι × Fin n) => f ((X p.1).at ((p.2 : ℕ) / n)) ω) P :=
      gaussianProcess_vector h.gaussian fun p : ι × Fin n => (X p.1).at ((p.2 : ℕ) / n)
    have eA : A n = fun ω => (fun p : ι × Fin n => w p.1 * (1 / (n : ℝ))) ⬝ᵥ fun p => f ((X p.1).at ((p.2 : ℕ) / n)) ω :=
      funext fun ω => riemann_comb n w fun i u => f ((X i).at u) ω
    have hAl : HasGaussianLaw (A n) P := by
      rw [eA]
      exact hY.map_fun (LinearMap.toContinuousLinearMap (dotProductBilin ℝ ℝ fun p : ι × Fin n => w p.1 * (1 / (n : ℝ))))
    have hA0 : P[A n] = 0 := by
      rw [eA]
      exact mulVec_mean (Y := fun (p : ι × Fin n) ω => f ((X p.1).at ((p.2 : ℕ) / n)) ω) (fun p => (hY.eval p).integrable) (fun p => h.mean _) _
    have hAv : Var[A n; P] = V n := by
      rw [← covariance_self hAl.aemeasurable, eA, hV]
      rw [mulVec_cov (Y := fun (p : ι × Fin n) ω => f ((X p.1).at ((p.2 : ℕ) / n)) ω) (fun p => (hY.eval p).memLp_two) (fun p q => h.cov _ _)]
      exact (riemann_comb2 n w fun i j u v => κ |(X i).at u - (X j).at v|).symm
    refine ⟨⟨hAl.aemeasurable, ?_⟩, hAv ▸ variance_nonneg _ _⟩
    rw [hAl.map_eq_gaussianReal, hA0, hAv]
  have hm : AEMeasurable (fun ω => ∑ i, w i * (X i).average fun s => f s ω) P :=
    aemeasurable_of_tendsto_metrizable_ae atTop (fun n => (hlaw n).1.aemeasurable) (Eventually.of_forall hAlim)
  have hV0 : 0 ≤ ∑ i, w i * ∑ j, w j * exposureCov κ (X i) (X j) := ge_of_tendsto' hVlim fun n => (hlaw n).2
  refine ⟨⟨hm, ?_⟩, hV0⟩
  have hPm := Measure.isProbabilityMeasure_map (μ := P) hm
  refine Measure.ext_of_charFun (funext fun t => ?_)
  have h1 : Tendsto (fun n => charFun (P.map (A n)) t) atTop
      (𝓝 (charFun (P.map fun ω => ∑ i, w i * (X i).average fun s => f s ω) t)) := by
    have hint : ∀ {B : Ω → ℝ}, AEMeasurable B P → charFun (P.map B) t = ∫ ω, Complex.exp (t * B ω * Complex.I) ∂P := by
      intro B hB
      rw [charFun_apply_real, integral_map hB (by fun_prop)]
    rw [hint hm]
    simp_rw [fun n => hint (hlaw n).1.aemeasurable]
    refine tendsto_integral_of_dominated_convergence (fun _ => 1) (fun n => ?_) (integrable_const _) (fun n => ?_) ?_
    · have := (hlaw n).1.aemeasurable
      exact (by fun_prop : AEMeasurable (fun ω => Complex.exp (t * A n ω * Complex.I)) P).aestronglyMeasurable
    · refine Eventually.of_forall fun ω => le_of_eq ?_
      rw [← Complex.ofReal_mul, Complex.norm_exp_ofReal_mul_I]
    · refine Eventually.of_forall fun ω => ?_
      exact (by fun_prop : Continuous fun a : ℝ => Complex.exp (t * a * Complex.I)).tendsto _ |>.comp (hAlim ω)
  have h2 : Tendsto (fun n => charFun (P.map (A n)) t) atTop
      (𝓝 (charFun (gaussianReal 0 (∑ i, w i * ∑ j, w j * exposureCov κ (X i) (X j)).toNNReal) t)) := by
    simp_rw [fun n => (hlaw n).1.map_eq, charFun_gaussianReal, Real.coe_toNNReal _ hV0, fun n => Real.coe_toNNReal _ (hlaw n).2]
    exact (by fun_prop : Continuous fun v : ℝ => Complex.exp (t * ((0 : ℝ) : ℂ) * Complex.I - (v : ℂ) * t ^ 2 / 2)).tendsto _ |>.comp hVlim
  exact tendsto_nhds_unique h1 h2

/-- a vector whose linear combinations are normal variables is Gaussian -/
theorem hasGaussianLaw_of_comb {ι : Type*} [Fintype ι] [IsProbabilityMeasure P] {Z : ι → Ω → ℝ} (hm : ∀ i, AEMeasurable (Z i) P)
    (h : ∀ w : ι → ℝ, ∃ v, HasLaw (fun ω => ∑ i, w i * Z i ω) (gaussianReal 0 v) P) : HasGaussianLaw (fun ω i => Z i ω) P := by
  classical
  have hZ : AEMeasurable (fun ω i => Z i ω) P := aemeasurable_pi_lambda _ hm
  refine ⟨⟨fun L => ?_⟩⟩
  obtain ⟨v, hv⟩ := h fun i => L (Pi.single i 1)
  have e : (fun ω => ∑ i, L (Pi.single i 1) * Z i ω) = L ∘ fun ω i => Z i ω := by
    funext ω
    rw [Function.comp_apply]
    conv_rhs => rw [← Finset.univ_sum_single (fun i => Z i ω), map_sum]
    refine Finset.sum_congr rfl fun i _ => ?_
    have := L.map_smul (Z i ω) (Pi.single i 1)
    rw [← Pi.single_smul, smul_eq_mul, mul_one, smul_eq_mul, mul_comm] at this
    exact this.symm
  rw [e] at hv
  have hL : HasLaw L (gaussianReal 0 v) (P.map fun ω i => Z i ω) := by
    refine ⟨L.continuous.measurable.aemeasurable, ?_⟩
    rw [AEMeasurable.map_map_of_aemeasurable L.continuous.measurable.aemeasurable hZ, hv.map_eq]
  rw [hL.map_eq, hL.integral_eq, integral_id_gaussianReal, hL.variance_eq, variance_id_gaussianReal, Real.toNNReal_coe]

/-- **averages of a Gaussian process with continuous paths** are jointly Gaussian with covariances `exposureCov` -/
theorem Spec.GaussianPaths.latent (h : GaussianPaths P κ f) (hκ : Continuous fun u => κ |u|) :
    Latent P κ Set.univ fun c ω => c.average fun s => f s ω := by
  have hP := h.gaussian.isProbabilityMeasure
  have h1 : ∀ c : Coord, HasLaw (fun ω => c.average fun s => f s ω) (gaussianReal 0 (exposureCov κ c c).toNNReal) P ∧
      0 ≤ exposureCov κ c c := by
    intro c
    have := h.comb_law hκ (fun _ : Unit => c) (fun _ => 1)
    simpa using this
  have hvar : ∀ c : Coord, Var[fun ω => c.average fun s => f s ω; P] = exposureCov κ c c := fun c => by
    rw [(h1 c).1.variance_eq, variance_id_gaussianReal, Real.coe_toNNReal _ (h1 c).2]
  refine ⟨⟨fun I => ?_⟩, fun c _ => ?_, fun c _ d _ => ?_⟩
  · exact hasGaussianLaw_of_comb (Z := fun (i : I) ω => (i : Coord).average fun s => f s ω) (fun i => (h1 _).1.aemeasurable)
      fun w => ⟨_, (h.comb_law hκ (fun i : I => ((i : (Set.univ : Set Coord)) : Coord)) w).1⟩
  · rw [(h1 c).1.integral_eq, integral_id_gaussianReal]
  · have h2 := h.comb_law hκ ![c, d] ![1, 1]
    simp only [Fin.sum_univ_two, Matrix.cons_val_zero, Matrix.cons_val_one, one_mul] at h2
    have e := variance_fun_add (h1 c).1.hasGaussianLaw.memLp_two (h1 d).1.hasGaussianLaw.memLp_two
    rw [h2.1.variance_eq, variance_id_gaussianReal, Real.coe_toNNReal _ h2.2, hvar, hvar, exposureCov_comm hκ d c] at e
    linarith

/-- values of a Gaussian process at instants, whatever its paths -/
theorem latent_of_process (hf : IsGaussianProcess f P) (h0 : ∀ s, P[f s] = 0) (hc : ∀ s t, cov[f s, f t; P] = κ |s - t|) :
    Latent P κ {c | c.delta ≤ 0} fun c => f c.sortable := by
  refine ⟨hf.comp_right fun c : {c : Coord | c.delta ≤ 0} => (c : Coord).sortable, fun c _ => h0 _, fun c hcd d hdd => ?_⟩
  rw [hc]
  simp only [exposureCov, Coord.average, if_neg (not_lt.2 (show c.delta ≤ 0 from hcd)),
    if_neg (not_lt.2 (show d.delta ≤ 0 from hdd))]

/-- averages over exposures are independent of whatever the process is independent of -/
theorem average_indep {ι : Type*} {e : ι → Ω → ℝ} (h : GaussianPaths P κ f) (hfe : IndepFun (fun ω (s : ℝ) => f s ω) (fun ω i => e i ω) P) :
    IndepFun (fun ω (c : (Set.univ : Set Coord)) => (c : Coord).average fun s => f s ω) (fun ω i => e i ω) P := by
  have hm : Measurable fun (z : ℝ → ℝ) (c : (Set.univ : Set Coord)) => limsup (fun n => riemann n fun u => z ((c : Coord).at u)) atTop := by
    refine measurable_pi_lambda _ fun c => Measurable.limsup fun n => ?_
    unfold riemann
    exact (Finset.measurable_sum (Finset.range n) fun (k : ℕ) _ =>
      (measurable_pi_apply ((c : Coord).at ((k : ℝ) / n)) : Measurable fun z : ℝ → ℝ => z ((c : Coord).at ((k : ℝ) / n)))).const_mul _
  have hi := hfe.comp hm measurable_id
  have e1 : (fun ω (c : (Set.univ : Set Coord)) => (c : Coord).average fun s => f s ω) =
      (fun (z : ℝ → ℝ) (c : (Set.univ : Set Coord)) => limsup (fun n => riemann n fun u => z ((c : Coord).at u)) atTop) ∘ fun ω s => f s ω := by
    funext ω c
    rw [Coord.average_unit]
    exact (riemann_continuous ((h.continuous ω).comp (c : Coord).at_continuous)).limsup_eq.symm
  rw [e1]
  exact hi

section measured
variable {T : Set Coord} {g : Coord → Ω → ℝ} {X : Arr Coord} {R : Arr ℝ} {Y : Fin X.len → Ω → ℝ}

/-- measurements and one further latent value are jointly Gaussian -/
theorem Spec.Measured.gaussian (h : Measured P κ T g X R Y) {c : Coord} (hc : c ∈ T) :
    HasGaussianLaw (fun ω => (g c ω, fun i => Y i ω)) P := by
  have hP := h.latent.gaussian.isProbabilityMeasure
  have hZ : HasGaussianLaw (fun ω (o : Option (Fin X.len)) =>
      g ((o.elim (⟨c, hc⟩ : T) fun i => ⟨X.get i, h.coords i i.2⟩ : T) : Coord) ω) P :=
    gaussianProcess_vector h.latent.gaussian fun o : Option (Fin X.len) => o.elim (⟨c, hc⟩ : T) fun i => ⟨X.get i, h.coords i i.2⟩
  have he : HasGaussianLaw (fun ω (i : Fin X.len) => Y i ω - g (X.get i) ω) P :=
    iIndepFun.hasGaussianLaw (fun i => (h.error_law i).hasGaussianLaw) h.errors_independent
  have hi := h.independent.comp (φ := fun (z : T → ℝ) (o : Option (Fin X.len)) => z (o.elim (⟨c, hc⟩ : T) fun i => ⟨X.get i, h.coords i i.2⟩))
    (ψ := id) (measurable_pi_lambda _ fun o => measurable_pi_apply _) measurable_id
  have hj := IndepFun.hasGaussianLaw hZ he hi
  set L : ((Option (Fin X.len) → ℝ) × (Fin X.len → ℝ)) →ₗ[ℝ] ℝ × (Fin X.len → ℝ) :=
    { toFun := fun p => (p.1 none, fun i => p.1 (some i) + p.2 i)
      map_add' := fun p q => by
        refine Prod.ext rfl (funext fun i => ?_)
        show (p.1 (some i) + q.1 (some i)) + (p.2 i + q.2 i) = (p.1 (some i) + p.2 i) + (q.1 (some i) + q.2 i)
        ring
      map_smul' := fun r p => by
        refine Prod.ext rfl (funext fun i => ?_)
        show r * p.1 (some i) + r * p.2 i = r * (p.1 (some i) + p.2 i)
        ring } with hL
  refine (hj.map_fun (LinearMap.toContinuousLinearMap L)).congr (Eventually.of_forall fun ω => ?_)
  refine Prod.ext rfl (funext fun i => ?_)
  show g (X.get i) ω + (Y i ω - g (X.get i) ω) = Y i ω
  ring

theorem Spec.Measured.moments (h : Measured P κ T g X R Y) (hR : ∀ i < X.len, 0 ≤ R.get i) :
    (∀ i, P[Y i] = 0) ∧
    (∀ i j, cov[Y i, Y j; P] = noisyGram (fun i j : Fin X.len => exposureCov κ (X.get i) (X.get j)) (fun i => R.get i) i j) ∧
    ∀ c ∈ T, P[g c] = 0 ∧ Var[g c; P] = exposureCov κ c c ∧ ∀ i, cov[g c, Y i; P] = exposureCov κ c (X.get i) := by
  have hP := h.latent.gaussian.isProbabilityMeasure
  set e : Fin X.len → Ω → ℝ := fun i ω => Y i ω - g (X.get i) ω with he
  have hYe : ∀ i, Y i = g (X.get i) + e i := fun i => by
    funext ω; simp [he]
  have hX : ∀ i : Fin X.len, X.get i ∈ T := fun i => h.coords i i.2
  have hg2 : ∀ c ∈ T, MemLp (g c) 2 P := fun c hc => (h.latent.gaussian.hasGaussianLaw_eval ⟨c, hc⟩).memLp_two
  have he2 : ∀ i, MemLp (e i) 2 P := fun i => (h.error_law i).hasGaussianLaw.memLp_two
  have he0 : ∀ i, P[e i] = 0 := fun i => by
    show P[fun ω => Y i ω - g (X.get i) ω] = 0
    rw [(h.error_law i).integral_eq, integral_id_gaussianReal]
  have hev : ∀ i, Var[e i; P] = R.get i := fun i => by
    show Var[fun ω => Y i ω - g (X.get i) ω; P] = _
    rw [(h.error_law i).variance_eq, variance_id_gaussianReal, Real.coe_toNNReal _ (hR i i.2)]
  have hge : ∀ c ∈ T, ∀ i, cov[g c, e i; P] = 0 := fun c hc i => by
    have hi := h.independent.comp (measurable_pi_apply (⟨c, hc⟩ : T) : Measurable fun z : T → ℝ => z ⟨c, hc⟩)
      (measurable_pi_apply i : Measurable fun z : Fin X.len → ℝ => z i)
    exact IndepFun.covariance_eq_zero hi (hg2 c hc) (he2 i)
  have hee : ∀ i j, cov[e i, e j; P] = if i = j then R.get i else 0 := fun i j => by
    split_ifs with hij
    · rw [← hij, covariance_self (he2 i).aemeasurable, hev]
    · exact IndepFun.covariance_eq_zero (h.errors_independent.indepFun hij) (he2 i) (he2 j)
  refine ⟨fun i => ?_, fun i j => ?_, fun c hc => ⟨h.latent.mean c hc, ?_, fun i => ?_⟩⟩
  · rw [hYe]
    show ∫ ω, (g (X.get i) ω + e i ω) ∂P = 0
    rw [integral_add ((hg2 _ (hX i)).integrable one_le_two) ((he2 i).integrable one_le_two), h.latent.mean _ (hX i), he0, add_zero]
  · rw [hYe i, hYe j, covariance_add_left (hg2 _ (hX i)) (he2 i) ((hg2 _ (hX j)).add (he2 j)),
      covariance_add_right (hg2 _ (hX i)) (hg2 _ (hX j)) (he2 j), covariance_add_right (he2 i) (hg2 _ (hX j)) (he2 j),
      h.latent.cov _ (hX i) _ (hX j), hge _ (hX i), covariance_comm (e i), hge _ (hX j), hee]
    simp [noisyGram]
  · rw [← covariance_self (hg2 c hc).aemeasurable, h.latent.cov c hc c hc]
  · rw [hYe i, covariance_add_right (hg2 c hc) (hg2 _ (hX i)) (he2 i), h.latent.cov c hc _ (hX i), hge c hc, add_zero]

open scoped MatrixOrder in
/-- **such experiments exist**, for any positive semidefinite covariance function and any finite set of coordinates -/
theorem exists_measured (hκ : Continuous fun u => κ |u|) (hp : PosSemidefFn κ) (X : Arr Coord) (R : Arr ℝ) (T : Finset Coord)
    (hT : ∀ i < X.len, X.get i ∈ T) : ∃ (Ω : Type) (_ : MeasurableSpace Ω) (P : Measure Ω) (g : Coord → Ω → ℝ) (Y : Fin X.len → Ω → ℝ),
      Measured P κ (T : Set Coord) g X R Y ∧ ∀ i, Measurable (Y i) := by
  classical
  obtain ⟨B, hB⟩ := CStarAlgebra.nonneg_iff_eq_star_mul_self.mp (exposureGram_psd hκ hp fun c : T => (c : Coord)).nonneg
  rw [star_eq_conjTranspose, conjTranspose_eq_transpose_of_trivial] at hB
  set μ : Measure (T → ℝ) := Measure.pi fun _ => gaussianReal 0 1 with hμ
  set ν : Measure (Fin X.len → ℝ) := Measure.pi fun i => gaussianReal 0 (R.get i).toNNReal with hν
  set g : Coord → (T → ℝ) × (Fin X.len → ℝ) → ℝ := fun c ω => if hc : c ∈ T then Bᵀ ⟨c, hc⟩ ⬝ᵥ ω.1 else 0 with hg
  have hgm : ∀ c, Measurable fun z : T → ℝ => if hc : c ∈ T then Bᵀ ⟨c, hc⟩ ⬝ᵥ z else 0 := by
    intro c
    by_cases hc : c ∈ T
    · simp only [hc, dif_pos]
      exact (LinearMap.toContinuousLinearMap (dotProductBilin ℝ ℝ (Bᵀ ⟨c, hc⟩))).continuous.measurable
    · simp only [hc, dif_neg, not_false_eq_true]
      exact measurable_const
  have hgT : ∀ c : T, g c = fun ω => Bᵀ c ⬝ᵥ ω.1 := fun c => by
    funext ω; simp only [hg, dif_pos c.2, Subtype.coe_eta]
  -- the coordinates of the probability space
  have hfst : ∀ t : T, HasLaw (fun ω : (T → ℝ) × (Fin X.len → ℝ) => ω.1 t) (gaussianReal 0 1) (μ.prod ν) := fun t => by
    refine ⟨by fun_prop, ?_⟩
    rw [show (fun ω : (T → ℝ) × (Fin X.len → ℝ) => ω.1 t) = (fun z : T → ℝ => z t) ∘ Prod.fst from rfl,
      ← Measure.map_map (measurable_pi_apply t) measurable_fst, Measure.map_fst_prod, measure_univ, one_smul]
    exact (measurePreserving_eval (fun _ : T => gaussianReal 0 1) t).map_eq
  have hsnd : ∀ i, HasLaw (fun ω : (T → ℝ) × (Fin X.len → ℝ) => ω.2 i) (gaussianReal 0 (R.get i).toNNReal) (μ.prod ν) := fun i => by
    refine ⟨by fun_prop, ?_⟩
    rw [show (fun ω : (T → ℝ) × (Fin X.len → ℝ) => ω.2 i) = (fun z : Fin X.len → ℝ => z i) ∘ Prod.snd from rfl,
      ← Measure.map_map (measurable_pi_apply i) measurable_snd, Measure.map_snd_prod, measure_univ, one_smul]
    exact (measurePreserving_eval (fun i : Fin X.len => gaussianReal 0 (R.get i).toNNReal) i).map_eq
  have hind1 : iIndepFun (fun (t : T) (ω : (T → ℝ) × (Fin X.len → ℝ)) => ω.1 t) (μ.prod ν) := by
    rw [iIndepFun_iff_map_fun_eq_pi_map fun t => (hfst t).aemeasurable]
    simp_rw [fun t => (hfst t).map_eq]
    show (μ.prod ν).map Prod.fst = _
    rw [Measure.map_fst_prod, measure_univ, one_smul]
  have hind2 : iIndepFun (fun (i : Fin X.len) (ω : (T → ℝ) × (Fin X.len → ℝ)) => ω.2 i) (μ.prod ν) := by
    rw [iIndepFun_iff_map_fun_eq_pi_map fun i => (hsnd i).aemeasurable]
    simp_rw [fun i => (hsnd i).map_eq]
    show (μ.prod ν).map Prod.snd = _
    rw [Measure.map_snd_prod, measure_univ, one_smul]
  have hW : HasGaussianLaw (fun (ω : (T → ℝ) × (Fin X.len → ℝ)) (t : T) => ω.1 t) (μ.prod ν) :=
    iIndepFun.hasGaussianLaw (fun t => (hfst t).hasGaussianLaw) hind1
  have hWc : ∀ s t : T, cov[fun ω : (T → ℝ) × (Fin X.len → ℝ) => ω.1 s, fun ω => ω.1 t; μ.prod ν] = (1 : Matrix T T ℝ) s t := by
    intro s t
    rw [Matrix.one_apply]
    split_ifs with hst
    · rw [← hst, covariance_self (hfst s).aemeasurable, (hfst s).variance_eq, variance_id_gaussianReal, NNReal.coe_one]
    · exact IndepFun.covariance_eq_zero (hind1.indepFun hst) (hW.eval s).memLp_two (hW.eval t).memLp_two
  have hgv : HasGaussianLaw (fun (ω : (T → ℝ) × (Fin X.len → ℝ)) (t : T) => g t ω) (μ.prod ν) := by
    refine (hW.map_fun (LinearMap.toContinuousLinearMap (Matrix.toLin' Bᵀ))).congr (Eventually.of_forall fun ω => funext fun t => ?_)
    exact (congrFun (hgT t) ω).symm
  refine ⟨(T → ℝ) × (Fin X.len → ℝ), inferInstance, μ.prod ν, g, fun i ω => g (X.get i) ω + ω.2 i,
    ⟨⟨⟨fun I => ?_⟩, fun c hc => ?_, fun c hc d hd => ?_⟩, hT, fun i => ?_, ?_, ?_⟩, fun i => ?_⟩
  · exact hgv.map_fun (ContinuousLinearMap.pi fun i : I =>
      ContinuousLinearMap.proj (R := ℝ) (φ := fun _ : T => ℝ) (⟨((i : ((T : Set Coord) : Type)) : Coord), (i : ((T : Set Coord) : Type)).2⟩ : T))
  · rw [hgT ⟨c, hc⟩]
    exact mulVec_mean (Y := fun (t : T) (ω : (T → ℝ) × (Fin X.len → ℝ)) => ω.1 t) (fun t => (hW.eval t).integrable)
      (fun t => by rw [(hfst t).integral_eq, integral_id_gaussianReal]) _
  · rw [hgT ⟨c, hc⟩, hgT ⟨d, hd⟩]
    rw [mulVec_cov (Y := fun (t : T) (ω : (T → ℝ) × (Fin X.len → ℝ)) => ω.1 t) (fun t => (hW.eval t).memLp_two) hWc, Matrix.one_mulVec]
    exact (congrFun (congrFun hB ⟨c, hc⟩) ⟨d, hd⟩).symm
  · simp only [add_sub_cancel_left]
    exact hsnd i
  · simp only [add_sub_cancel_left]
    exact hind2
  · simp only [add_sub_cancel_left]
    exact (indepFun_prod (μ := μ) (ν := ν) (X := fun (z : T → ℝ) (c : ((T : Set Coord) : Type)) => if hc : (c : Coord) ∈ T then Bᵀ ⟨c, hc⟩ ⬝ᵥ z else 0)
      (Y := fun z : Fin X.len → ℝ => z) (measurable_pi_lambda _ fun c => hgm c) measurable_id)
  · exact ((hgm (X.get i)).comp measurable_fst).add ((measurable_pi_apply i).comp measurable_snd)

end measured

end Verif
