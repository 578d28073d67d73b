import Verif.Props.ConsistencyLogNormal
import Verif.Props.ConsistencyExponential
import Verif.Props.NormalMirror

/-! # C149: the power of a test does not depend on the unit of measurement -/

namespace Pysatl.Props

open Pysatl.Decision Pysatl.Resolver Pysatl.Spec Pysatl.Edf Pysatl.Graph Pysatl.Gen Pysatl.Normal Pysatl.LogNormal
open Pysatl.Exponent
open MeasureTheory ProbabilityTheory Filter Topology

/-- The test of the statistic `st` rejects with the same probability in two settings: data of the law `Q`, reference samples
of the law `P`, and data of the law `Q'`, reference samples of the law `P'`; for every sample size, number of simulations and
level, by p-values and by critical values. -/
def SamePower (st : Statistic ℝ) (Q P Q' P' : Measure ℝ) : Prop :=
  ∀ n : ℕ, 0 < n → ∀ (B : ℕ) (α : ℝ),
    ((iid n Q).prod (Measure.pi fun _ : Fin B => iid n P)) {ω | TestRejects st α ω.1 ω.2} =
      ((iid n Q').prod (Measure.pi fun _ : Fin B => iid n P')) {ω | TestRejects st α ω.1 ω.2} ∧
    ((iid n Q).prod (Measure.pi fun _ : Fin B => iid n P)) {ω | CvRejects st α ω.1 ω.2} =
      ((iid n Q').prod (Measure.pi fun _ : Fin B => iid n P')) {ω | CvRejects st α ω.1 ω.2}

/-- With the same power a law is detected in both settings or in none. -/
theorem SamePower.detects {st : Statistic ℝ} {Q P Q' P' : Measure ℝ} (h : SamePower st Q P Q' P') :
    (Consistent st Q P ↔ Consistent st Q' P') ∧ (Undetected st Q P ↔ Undetected st Q' P') := by
  have h1 : ∀ (B : ℕ) (α : ℝ), (fun n => ((iid n Q).prod (Measure.pi fun _ : Fin B => iid n P))
        {ω | TestRejects st α ω.1 ω.2}) =ᶠ[atTop] fun n =>
      ((iid n Q').prod (Measure.pi fun _ : Fin B => iid n P')) {ω | TestRejects st α ω.1 ω.2} := fun B α => by
    filter_upwards [eventually_gt_atTop 0] with n hn
    exact (h n hn B α).1
  have h2 : ∀ (B : ℕ) (α : ℝ), (fun n => ((iid n Q).prod (Measure.pi fun _ : Fin B => iid n P))
        {ω | CvRejects st α ω.1 ω.2}) =ᶠ[atTop] fun n =>
      ((iid n Q').prod (Measure.pi fun _ : Fin B => iid n P')) {ω | CvRejects st α ω.1 ω.2} := fun B α => by
    filter_upwards [eventually_gt_atTop 0] with n hn
    exact (h n hn B α).2
  unfold Consistent Undetected
  simp only [fun B α => tendsto_congr' (l₂ := 𝓝 (1 : ENNReal)) (h1 B α),
    fun B α => tendsto_congr' (l₂ := 𝓝 (1 : ENNReal)) (h2 B α),
    fun B α => tendsto_congr' (l₂ := 𝓝 (0 : ENNReal)) (h1 B α),
    fun B α => tendsto_congr' (l₂ := 𝓝 (0 : ENNReal)) (h2 B α), and_self]

theorem samePower_of_affine {st : Statistic ℝ} {Q P Q' P' : Measure ℝ} [IsProbabilityMeasure Q] [IsProbabilityMeasure P]
    {a b c d : ℝ} (hb : b ≠ 0) (hd : d ≠ 0) (hQ : Q.map (fun x => a + b * x) = Q') (hP : P.map (fun x => c + d * x) = P')
    (iQ : ∀ n, ∀ᵐ x ∂iid n Q, st.execute ((List.ofFn x).map fun t => a + b * t) = st.execute (List.ofFn x))
    (iP : ∀ n, ∀ᵐ x ∂iid n P, st.execute ((List.ofFn x).map fun t => c + d * t) = st.execute (List.ofFn x)) :
    SamePower st Q' P' Q P := by
  intro n hn B α
  set e : (Fin n → ℝ) ≃ᵐ (Fin n → ℝ) := MeasurableEquiv.piCongrRight fun _ : Fin n => affEquiv a hb with he
  set f : (Fin n → ℝ) ≃ᵐ (Fin n → ℝ) := MeasurableEquiv.piCongrRight fun _ : Fin n => affEquiv c hd with hf
  have hQn : (iid n Q).map e = iid n Q' := by rw [← hQ, ← iid_map Q (by fun_prop)]; rfl
  have hPn : (iid n P).map f = iid n P' := by rw [← hP, ← iid_map P (by fun_prop)]; rfl
  set g : (Fin B → Fin n → ℝ) ≃ᵐ (Fin B → Fin n → ℝ) := MeasurableEquiv.piCongrRight fun _ : Fin B => f with hg
  have hi : IsProbabilityMeasure ((iid n P).map f) := Measure.isProbabilityMeasure_map f.measurable.aemeasurable
  have hPB : (Measure.pi fun _ : Fin B => iid n P).map g = Measure.pi fun _ : Fin B => iid n P' := by
    rw [← hPn]
    exact Measure.pi_map_pi fun _ => f.measurable.aemeasurable
  have hprod : (iid n Q').prod (Measure.pi fun _ : Fin B => iid n P') =
      ((iid n Q).prod (Measure.pi fun _ : Fin B => iid n P)).map (e.prodCongr g) := by
    rw [← hQn, ← hPB, Measure.map_prod_map _ _ e.measurable g.measurable]
    rfl
  have a1 : ∀ᵐ ω ∂(iid n Q).prod (Measure.pi fun _ : Fin B => iid n P),
      st.execute (List.ofFn (e ω.1)) = st.execute (List.ofFn ω.1) := by
    have h : ∀ᵐ x ∂iid n Q, st.execute (List.ofFn (e x)) = st.execute (List.ofFn x) := by
      filter_upwards [iQ n] with x hx
      rw [← hx, List.map_ofFn]
      rfl
    exact Measure.quasiMeasurePreserving_fst.ae h
  have a2 : ∀ᵐ ω ∂(iid n Q).prod (Measure.pi fun _ : Fin B => iid n P),
      ∀ j, st.execute (List.ofFn (f (ω.2 j))) = st.execute (List.ofFn (ω.2 j)) := by
    have h : ∀ᵐ x ∂iid n P, st.execute (List.ofFn (f x)) = st.execute (List.ofFn x) := by
      filter_upwards [iP n] with x hx
      rw [← hx, List.map_ofFn]
      rfl
    have h' : ∀ᵐ y ∂Measure.pi fun _ : Fin B => iid n P,
        ∀ j, st.execute (List.ofFn (f (y j))) = st.execute (List.ofFn (y j)) :=
      ae_all_iff.2 fun j => (measurePreserving_eval (fun _ : Fin B => iid n P) j).quasiMeasurePreserving.ae h
    exact Measure.quasiMeasurePreserving_snd.ae h'
  rw [hprod, MeasurableEquiv.map_apply, MeasurableEquiv.map_apply]
  constructor
  · refine measure_congr ?_
    filter_upwards [a1, a2] with ω h1 h2
    refine propext ?_
    show TestRejects st α (e ω.1) (fun j => f (ω.2 j)) ↔ TestRejects st α ω.1 ω.2
    simp only [testRejects_iff hn, h1, h2]
  · refine measure_congr ?_
    filter_upwards [a1, a2] with ω h1 h2
    refine propext ?_
    show CvRejects st α (e ω.1) (fun j => f (ω.2 j)) ↔ CvRejects st α ω.1 ω.2
    simp only [cvRejects_iff hn, h1, h2]

/-- **C149, normality**: every criterion of normality other than Kolmogorov-Smirnov and Cramér-von Mises.  Observations
recorded in other units, `a + b X` in place of `X`, are rejected with the same probability, and whichever normal laws are
used for the simulations. -/
theorem C149_normal {cls : NormStat} (hc : LocationScaleFree cls) (code : String) (params : Option (List (String × ℝ)))
    (Q : Measure ℝ) [IsProbabilityMeasure Q] (a : ℝ) {b : ℝ} (hb : 0 < b) (m m₀ : ℝ) {v v₀ : ℝ} (hv : 0 < v) (hv₀ : 0 < v₀) :
    SamePower (cls.statistic scipyNorm code params) (Q.map fun x => a + b * x) (gaussianReal m v.toNNReal)
      Q (gaussianReal m₀ v₀.toNNReal) := by
  have hs := Real.sqrt_pos.2 (div_pos hv hv₀)
  exact samePower_of_affine hb.ne' hs.ne' rfl (gaussian_affine' m m₀ hv hv₀)
    (fun n => .of_forall fun x => normal_execute_aff scipyNorm_symmetric hc code params a b hb _)
    (fun n => .of_forall fun x => normal_execute_aff scipyNorm_symmetric hc code params _ _ hs _)

/-- **C149, reversed scales**: the criteria that treat both tails alike reject `a + b X` with the same probability for negative
`b` too. -/
theorem C149_reversed {cls : NormStat} (hc : LocationScaleFree cls) (hm : MirrorFree cls) (code : String)
    (params : Option (List (String × ℝ))) (Q : Measure ℝ) [IsProbabilityMeasure Q] (a : ℝ) {b : ℝ} (hb : b ≠ 0) (m m₀ : ℝ)
    {v v₀ : ℝ} (hv : 0 < v) (hv₀ : 0 < v₀) :
    SamePower (cls.statistic scipyNorm code params) (Q.map fun x => a + b * x) (gaussianReal m v.toNNReal)
      Q (gaussianReal m₀ v₀.toNNReal) := by
  rcases lt_or_gt_of_ne hb with h | h
  · have hs := Real.sqrt_pos.2 (div_pos hv hv₀)
    refine samePower_of_affine hb hs.ne' rfl (gaussian_affine' m m₀ hv hv₀) (fun n => .of_forall fun x => ?_)
      (fun n => .of_forall fun x => normal_execute_aff scipyNorm_symmetric hc code params _ _ hs _)
    have e : ((List.ofFn x).map fun t => a + b * t) = ((List.ofFn x).map fun t => -t).map fun t => a + -b * t := by
      rw [List.map_map]
      refine List.map_congr_left fun t _ => ?_
      simp only [Function.comp]
      ring
    rw [e, normal_execute_aff scipyNorm_symmetric hc code params a (-b) (neg_pos.2 h)]
    show (cls.value scipyNorm _ >>= _) = (cls.value scipyNorm _ >>= _)
    rw [C115_mirror scipyNorm_mirror hm]
  · exact C149_normal hc code params Q a h m m₀ hv hv₀

/-- **C149, exponentiality**: every scale-free criterion of exponentiality (Epstein's, which takes logarithms of the
differences, for laws without atoms).  Positive observations recorded in another unit are rejected with the same probability,
and whichever exponential laws are used for the simulations. -/
theorem C149_exponential {s : ExpStat} (hs : ScaleFree s) (code : String) (params : Option (List (String × ℝ)))
    (Q : Measure ℝ) [IsProbabilityMeasure Q] (hQ : ∀ᵐ x ∂Q, 0 < x) (hQ' : s = .epstein → ∀ t, Q {t} = 0) {b : ℝ} (hb : 0 < b)
    {r r₀ : ℝ} (hr : 0 < r) (hr₀ : 0 < r₀) :
    SamePower (s.statistic code params) (Q.map fun x => b * x) (expMeasure r) Q (expMeasure r₀) := by
  have : IsProbabilityMeasure (expMeasure r₀) := isProbabilityMeasure_expMeasure hr₀
  refine samePower_of_affine (a := 0) hb.ne' (div_pos hr₀ hr).ne' (by simp only [zero_add]) (exp_affine hr hr₀)
    (fun n => ?_) (fun n => exponential_invariant hs hr₀ (div_pos hr₀ hr) n)
  have hd : ∀ᵐ x ∂iid n Q, s = .epstein → (List.ofFn x).Nodup := by
    by_cases he : s = .epstein
    · have : NullSingletonClass Q := ⟨hQ' he⟩
      filter_upwards [ae_injective (μ := Q) (N := n)] with x hx _
      exact List.nodup_ofFn.2 hx
    · exact .of_forall fun x h => absurd h he
  filter_upwards [iid_ae (n := n) hQ, hd] with x hx hn
  have hp : ∀ t ∈ List.ofFn x, 0 < t := fun t ht => by
    obtain ⟨i, rfl⟩ := (List.mem_ofFn' _ _).1 ht
    exact hx i
  have h := C62_scale s hs hp hn hb
  simp only [zero_add]
  exact h

/-- **C149, log-normality**: `c X ^ b` in place of `X`, whichever log-normal laws are used for the simulations, and whatever
the parameters of the two hypotheses. -/
theorem C149_lognormal {cls : NormStat} (hc : Wrapped cls) {s s' : ℝ} (hs : 0 < s) (hs' : 0 < s') (scale scale' : ℝ)
    (code : String) (params : Option (List (String × ℝ))) (Q : Measure ℝ) [IsProbabilityMeasure Q] (hQ : ∀ᵐ x ∂Q, 0 < x)
    {b c : ℝ} (hb : 0 < b) (hc0 : 0 < c) (mu mu₀ : ℝ) {sigma sigma₀ : ℝ} (hσ : 0 < sigma) (hσ₀ : 0 < sigma₀)
    {n : ℕ} (hn : 0 < n) (B : ℕ) (α : ℝ) :
    ((iid n (Q.map fun x => c * x ^ b)).prod (Measure.pi fun _ : Fin B => iid n (logNormalLaw mu sigma)))
        {ω | TestRejects (wrappedStatistic scipyNorm cls s scale code params) α ω.1 ω.2} =
      ((iid n Q).prod (Measure.pi fun _ : Fin B => iid n (logNormalLaw mu₀ sigma₀)))
        {ω | TestRejects (wrappedStatistic scipyNorm cls s' scale' code params) α ω.1 ω.2} ∧
    ((iid n (Q.map fun x => c * x ^ b)).prod (Measure.pi fun _ : Fin B => iid n (logNormalLaw mu sigma)))
        {ω | CvRejects (wrappedStatistic scipyNorm cls s scale code params) α ω.1 ω.2} =
      ((iid n Q).prod (Measure.pi fun _ : Fin B => iid n (logNormalLaw mu₀ sigma₀)))
        {ω | CvRejects (wrappedStatistic scipyNorm cls s' scale' code params) α ω.1 ω.2} := by
  have hm : Measurable fun x : ℝ => c * x ^ b := by fun_prop
  have h1 : IsProbabilityMeasure (Q.map fun x => c * x ^ b) := Measure.isProbabilityMeasure_map hm.aemeasurable
  have hL : IsProbabilityMeasure (Q.map Real.log) := Measure.isProbabilityMeasure_map Real.measurable_log.aemeasurable
  have hpos : ∀ᵐ x ∂Q.map fun x => c * x ^ b, 0 < x := by
    rw [ae_map_iff hm.aemeasurable measurableSet_Ioi]
    filter_upwards [hQ] with x hx
    exact mul_pos hc0 (Real.rpow_pos_of_pos hx b)
  have hlog : (Q.map fun x => c * x ^ b).map Real.log = (Q.map Real.log).map fun l => Real.log c + b * l := by
    rw [Measure.map_map Real.measurable_log hm, Measure.map_map (by fun_prop) Real.measurable_log]
    refine Measure.map_congr ?_
    filter_upwards [hQ] with x hx
    simp only [Function.comp]
    rw [Real.log_mul hc0.ne' (Real.rpow_pos_of_pos hx b).ne', Real.log_rpow hx]
  have p := C148_power hc hs scale code params _ hpos mu sigma hn B α
  have q := C148_power hc hs' scale' code params Q hQ mu₀ sigma₀ hn B α
  have r := C149_normal (wrapped_free hc) code params (Q.map Real.log) (Real.log c) hb mu mu₀ (pow_pos hσ 2) (pow_pos hσ₀ 2) n hn B α
  rw [hlog] at p
  exact ⟨p.1.trans (r.1.trans q.1.symm), p.2.trans (r.2.trans q.2.symm)⟩

/-- Uniform observations in degrees Celsius or Fahrenheit, judged by Jarque and Bera. -/
example : SamePower (NormStat.jarqueBera.statistic scipyNorm "JB" none) ((uniformLaw 0 30).map fun x => 32 + 9 / 5 * x)
    (gaussianReal 60 (Real.toNNReal 100)) (uniformLaw 0 30) (gaussianReal 0 (Real.toNNReal 1)) :=
  have := (cdf_uniformLaw (show (0 : ℝ) < 30 by norm_num)).1
  C149_normal (cls := .jarqueBera) trivial "JB" none _ 32 (by norm_num) 60 0 (by norm_num) one_pos

/-- Durations in hours or minutes, uniform on an hour, judged by Epstein. -/
example : SamePower (ExpStat.epstein.statistic "EPS" none) ((uniformLaw 0 1).map fun x => 60 * x)
    (expMeasure (1 / 30)) (uniformLaw 0 1) (expMeasure 2) := by
  have hp := (cdf_uniformLaw one_pos).1
  refine C149_exponential (s := .epstein) trivial "EPS" none _ ?_ (fun _ t => ?_) (by norm_num) (by norm_num) two_pos
  · filter_upwards [ae_cdf_inner (uniformCdf_continuous one_pos) (cdf_uniformLaw one_pos).2] with x hx
    exact ((uniformCdf_inner one_pos).1 hx).1
  · rw [uniformLaw, cond_apply measurableSet_Icc]
    refine mul_eq_zero_of_right _ (measure_mono_null Set.inter_subset_right (by simp))

end Pysatl.Props
