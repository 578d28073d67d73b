import Verif.Props.ConsistencyFitted
import Verif.Props.WrongSimulator

/-! # C150: what the Kolmogorov-Smirnov criteria respond to -/

namespace Pysatl.Props

open Pysatl.Decision Pysatl.Resolver Pysatl.Spec Pysatl.Edf Pysatl.Graph Pysatl.Gen Pysatl.Normal Pysatl.LogNormal
open MeasureTheory ProbabilityTheory Filter Topology

/-- The distance of the law `Q` from the law with distribution function `F`: the largest difference, the largest excess, the
largest deficit of the distribution function of `Q`. -/
noncomputable def ksGap (t : AlternativeType) (F : ℝ → ℝ) (Q : Measure ℝ) : ℝ :=
  match t with
  | .twoTailed => ⨆ x, |ProbabilityTheory.cdf Q x - F x|
  | .right => ⨆ x, (ProbabilityTheory.cdf Q x - F x)
  | .left => ⨆ x, (F x - ProbabilityTheory.cdf Q x)

theorem lub_near {a b : ℝ → ℝ} {d ε : ℝ} (hd : IsLUB (Set.range a) d) (hb : BddAbove (Set.range b))
    (h : ∀ x, |a x - b x| ≤ ε) : |d - ⨆ x, b x| ≤ ε := by
  rw [abs_le]
  constructor
  · have : ⨆ x, b x ≤ d + ε := ciSup_le fun x => by
      have := hd.1 ⟨x, rfl⟩
      have := (abs_le.1 (h x)).1
      linarith
    linarith
  · have : d ≤ (⨆ x, b x) + ε := hd.2 (by
      rintro _ ⟨x, rfl⟩
      have := le_ciSup hb x
      have := (abs_le.1 (h x)).2
      linarith)
    linarith

section
variable {F : ℝ → ℝ} (hF : Continuous F) {H : Measure ℝ} [IsProbabilityMeasure H]
  (hcdf : ∀ x, ProbabilityTheory.cdf H x = F x) {st : Statistic ℝ} {t : AlternativeType}
  (hv : ∀ xs, xs ≠ [] → st.execute xs = ksOf t F xs)

include hF hcdf hv in
/-- The value settles at the distance of the law of the data. -/
theorem ks_settles {Q : Measure ℝ} [IsProbabilityMeasure Q] (hQ : Continuous (ProbabilityTheory.cdf Q)) :
    ValueSettles st (fun _ u => u) Q (ksGap t F Q) := by
  have hm : Monotone F := fun x y h => by rw [← hcdf, ← hcdf]; exact monotone_cdf _ h
  have h01 : ∀ x, 0 ≤ F x ∧ F x ≤ 1 := fun x => by rw [← hcdf]; exact ⟨cdf_nonneg _ _, cdf_le_one _ _⟩
  have hq : ∀ x, 0 ≤ ProbabilityTheory.cdf Q x ∧ ProbabilityTheory.cdf Q x ≤ 1 := fun x =>
    ⟨cdf_nonneg _ _, cdf_le_one _ _⟩
  filter_upwards [glivenko hQ] with ω h
  have hne : ∀ n, 0 < n → List.ofFn (firsts n ω) ≠ [] := fun n hn => by rw [Ne, List.ofFn_eq_nil_iff]; omega
  have key : ∀ n, 0 < n → ∃ d, ksOf t F (List.ofFn (firsts n ω)) = .ok d ∧
      ∀ ε, (∀ x, |fracLe (List.ofFn (firsts n ω)) x - ProbabilityTheory.cdf Q x| ≤ ε) → |d - ksGap t F Q| ≤ ε := by
    intro n hn
    obtain ⟨d, p, m, hd, hp, hm', ld, lp, lm, -⟩ := C55_sup_distance hF hm h01 (hne n hn)
    match t with
    | .twoTailed =>
      refine ⟨d, hd, fun ε hε => lub_near ld ⟨1, ?_⟩ fun x => (abs_abs_sub_abs_le _ _).trans ?_⟩
      · rintro _ ⟨x, rfl⟩
        rw [abs_le]
        constructor <;> linarith [(hq x).1, (hq x).2, (h01 x).1, (h01 x).2]
      · rw [sub_sub_sub_cancel_right]
        exact hε x
    | .right =>
      refine ⟨p, hp, fun ε hε => lub_near lp ⟨1, ?_⟩ fun x => ?_⟩
      · rintro _ ⟨x, rfl⟩
        simp only
        linarith [(hq x).2, (h01 x).1]
      · rw [sub_sub_sub_cancel_right]
        exact hε x
    | .left =>
      refine ⟨m, hm', fun ε hε => lub_near lm ⟨1, ?_⟩ fun x => ?_⟩
      · rintro _ ⟨x, rfl⟩
        simp only
        linarith [(hq x).1, (h01 x).2]
      · rw [sub_sub_sub_cancel_left, abs_sub_comm]
        exact hε x
  choose! v hv1 hv2 using key
  refine ⟨v, ?_, ?_⟩
  · rw [Metric.tendsto_atTop]
    intro ε hε
    have := (h (ε / 2) (by positivity)).and (eventually_gt_atTop 0)
    obtain ⟨N, hN⟩ := eventually_atTop.1 this
    exact ⟨N, fun n hn => by
      rw [Real.dist_eq]
      exact (hv2 n (hN n hn).2 _ (hN n hn).1).trans_lt (by linarith)⟩
  · filter_upwards [eventually_gt_atTop 0] with n hn
    rw [hv _ (hne n hn), hv1 n hn]

include hF hcdf hv in
theorem ks_outcomeMeas (n : ℕ) : OutcomeMeas fun x : Fin n → ℝ => st.execute (List.ofFn x) := by
  rcases Nat.eq_zero_or_pos n with rfl | hn
  · exact fun c => Subsingleton.measurableSet
  have hm : Monotone F := fun x y h => by rw [← hcdf, ← hcdf]; exact monotone_cdf _ h
  have hval : ∀ x : Fin n → ℝ, st.execute (List.ofFn x) = (EdfStat.ks t).ofVals (sort (List.ofFn fun i => F (x i))) := by
    intro x
    have : (sort (List.ofFn x)).map F = sort (List.ofFn fun i => F (x i)) := by
      refine List.Perm.eq_of_pairwise (le := (· ≤ ·)) (fun _ _ _ _ => le_antisymm) (map_sorted hm _)
        (sort_pairwise _) ?_
      refine ((sort_perm _).map F).trans ?_
      rw [List.map_ofFn]
      exact (sort_perm _).symm
    rw [hv _ (by rw [Ne, List.ofFn_eq_nil_iff]; omega), ← this]
    rfl
  intro c
  simp only [hval]
  have hS : MeasurableSet {v : Fin n → ℝ | List.ofFn v ∈ {l | ∃ d ≤ c, (EdfStat.ks t).ofVals l = .ok d}} :=
    outcomeMeas_edf (listMeas_ofFn n) (.ks t) c
  have hm : Measurable fun (x : Fin n → ℝ) i => F (x i) := by
    have := hF.measurable
    fun_prop
  exact hm (measurable_sort hS)

include hF hcdf hv in
theorem ks_compares (ht : st.alternative = t) {Q P : Measure ℝ} [IsProbabilityMeasure Q] [IsProbabilityMeasure P]
    (hQ : Continuous (ProbabilityTheory.cdf Q)) (hP : Continuous (ProbabilityTheory.cdf P)) :
    (t ≠ .left → ksGap t F P < ksGap t F Q → Consistent st Q P) ∧
    (t ≠ .right → ksGap t F Q < ksGap t F P → Consistent st Q P) ∧
    (t = .right → ksGap t F Q < ksGap t F P → Undetected st Q P) ∧
    (t = .left → ksGap t F P < ksGap t F Q → Undetected st Q P) := by
  have hM := ks_outcomeMeas hF hcdf hv
  have hg : ∀ᶠ n : ℕ in atTop, StrictMono fun u : ℝ => u := .of_forall fun _ => strictMono_id
  have sQ := ks_settles hF hcdf hv hQ
  have sP := ks_settles hF hcdf hv hP
  subst ht
  exact ⟨fun h1 h2 => value_consistent hM hg sQ sP (.inl ⟨h1, h2⟩), fun h1 h2 => value_consistent hM hg sQ sP (.inr ⟨h1, h2⟩),
    fun h1 h2 => value_undetected hM hg sQ sP (.inr ⟨h1, h2⟩), fun h1 h2 => value_undetected hM hg sQ sP (.inl ⟨h1, h2⟩)⟩

end

/-- The criterion `st` compares the distance of the law of the data from `H` with the distance of the simulated law `P` from
`H`: with enough data, two-tailed, it rejects if the distances differ; right-tailed, it rejects if the data are further away
and does not reject if they are closer; left-tailed, it rejects if the data are closer and does not if they are further
away. -/
def KsCompares (st : Statistic ℝ) (t : AlternativeType) (H P : Measure ℝ) : Prop :=
  ∀ Q : Measure ℝ, IsProbabilityMeasure Q → Continuous (ProbabilityTheory.cdf Q) →
    (t ≠ .left → ksGap t (ProbabilityTheory.cdf H) P < ksGap t (ProbabilityTheory.cdf H) Q → Consistent st Q P) ∧
    (t ≠ .right → ksGap t (ProbabilityTheory.cdf H) Q < ksGap t (ProbabilityTheory.cdf H) P → Consistent st Q P) ∧
    (t = .right → ksGap t (ProbabilityTheory.cdf H) Q < ksGap t (ProbabilityTheory.cdf H) P → Undetected st Q P) ∧
    (t = .left → ksGap t (ProbabilityTheory.cdf H) P < ksGap t (ProbabilityTheory.cdf H) Q → Undetected st Q P)

variable {classes : List GeneratorClass} (hp : classes.Perm generatorClasses) (t : AlternativeType)

include hp in
/-- **C150, normal family**: the distances are measured from the standard normal law, whatever the hypothesis. -/
theorem C150_normal (code : String) (params : Option (List (String × ℝ))) (m : ℝ) {v : ℝ} (hv : 0 < v) :
    ∃ G P, (Gen.Family.normal m v).simulator classes = .ok G ∧ (∀ n, G.generate n = .ok (iid n P)) ∧
      KsCompares ((NormStat.ks t).statistic scipyNorm code params) t (gaussianReal 0 1) P := by
  obtain ⟨G, hG, hgen⟩ := simulates_all (f := .normal m v) fun n => C111_normal classes hp m v hv.le n
  have := noAtoms_gaussianReal (μ := m) (Real.toNNReal_pos.2 hv).ne'
  refine ⟨G, _, hG, hgen, fun Q _ hQ => ks_compares (st := (NormStat.ks t).statistic scipyNorm code params) (t := t)
    Phi_continuous (H := gaussianReal 0 1) (fun _ => rfl) (fun xs _ => ?_) rfl hQ
    (continuous_cdf (gaussianReal m v.toNNReal))⟩
  show ((ksOf t Phi xs).map some >>= _) = ksOf t Phi xs
  cases ksOf t Phi xs <;> rfl

include hp in
/-- **C150, exponential family**: the distances are measured from the exponential law of rate one, whatever the
hypothesis. -/
theorem C150_exponential (code : String) (params : Option (List (String × ℝ))) {r : ℝ} (hr : 0 < r) :
    ∃ G P, (Gen.Family.exponential r).simulator classes = .ok G ∧ (∀ n, G.generate n = .ok (iid n P)) ∧
      KsCompares ((Exponent.ExpStat.ks t).statistic code params) t (expMeasure 1) P := by
  have hpr : IsProbabilityMeasure (expMeasure r) := isProbabilityMeasure_expMeasure hr
  have hp1 : IsProbabilityMeasure (expMeasure 1) := isProbabilityMeasure_expMeasure one_pos
  obtain ⟨G, hG, hgen⟩ := simulates_all (f := .exponential r) fun n => C111_exponential classes hp r hr n
  refine ⟨G, _, hG, hgen, fun Q _ hQ => ks_compares (st := (Exponent.ExpStat.ks t).statistic code params) (t := t)
    (exp_continuous one_pos) (fun _ => rfl) (fun xs _ => ?_) rfl hQ (exp_continuous hr)⟩
  have e : (ProbabilityTheory.cdf (expMeasure 1) : ℝ → ℝ) = Exponent.exponCdf 1 := funext (cdf_exp one_pos)
  rw [e]
  rfl

include hp in
/-- **C150, log-normal family**. -/
theorem C150_logNormal {s scale : ℝ} (hs : 0 < s) (hc : 0 < scale) (code : String) :
    ∃ G P, (Gen.Family.logNormal s scale).simulator classes = .ok G ∧ (∀ n, G.generate n = .ok (iid n P)) ∧
      KsCompares ((SimpleStat.ks t).statistic scipyNorm s scale code) t (logNormalLaw (Real.log scale) s) P := by
  obtain ⟨G, hG, hgen⟩ := logNormal_simulates hp hs scale
  have h0 := logNormal_nullSingleton 0 hs
  have h1 := logNormal_nullSingleton (Real.log scale) hs
  refine ⟨G, _, hG, hgen, fun Q _ hQ => ks_compares (st := (SimpleStat.ks t).statistic scipyNorm s scale code) (t := t)
    (continuous_cdf (logNormalLaw (Real.log scale) s)) (fun _ => rfl)
    (fun xs _ => ?_) rfl hQ (continuous_cdf (logNormalLaw 0 s))⟩
  rw [logNormalSimple_value, ← funext (cdf_logNormalLaw hs hc)]
  rfl

include hp in
/-- **C150, gamma family**. -/
theorem C150_gamma {lib : Gamma.GammaLib} (hlib : ScipyGamma lib) {a β : ℝ} (ha : 0 < a) (hβ : 0 < β) :
    ∃ G P, (Gen.Family.gamma a β).simulator classes = .ok G ∧ (∀ n, G.generate n = .ok (iid n P)) ∧
      KsCompares ((Gamma.GammaStat.ks t).statistic lib ⟨a, β⟩) t (gammaMeasure a β) P := by
  have hpr := isProbabilityMeasure_gammaMeasure one_pos hβ
  have hpa := isProbabilityMeasure_gammaMeasure ha hβ
  obtain ⟨G, hG, hgen⟩ := simulates_all fun n => simulates (simulator_law hp (.gamma a β)) (gamma_rvs_one hβ) n
  exact ⟨G, _, hG, hgen, fun Q _ hQ => ks_compares (st := (Gamma.GammaStat.ks t).statistic lib ⟨a, β⟩) (t := t)
    (continuous_cdf (gammaMeasure a β)) (fun _ => rfl)
    (fun xs hne => gamma_edf hlib (p := ⟨a, β⟩) ha hβ (s := .ks t) (e := .ks t) rfl hne) rfl hQ
    (continuous_cdf (gammaMeasure 1 β))⟩

include hp in
/-- **C150, Student family**. -/
theorem C150_student {lib : Student.StudentLib} (hlib : ScipyStudent lib) {k m c : ℝ} (hk : 0 < k) (hc : 0 < c) :
    ∃ G P, (Gen.Family.student k m c).simulator classes = .ok G ∧ (∀ n, G.generate n = .ok (iid n P)) ∧
      KsCompares ((Student.StudentStat.ks t).statistic lib ⟨k, m, c⟩) t (studentAt k m c) P := by
  have hpr := student_prob hk
  have hpa := studentAt_prob (m := m) (c := c) hk
  obtain ⟨G, hG, hgen⟩ := simulates_all (f := .student k m c) fun n => (C111_degreesOfFreedom classes hp k hk n).2
  have e : (fun x => ProbabilityTheory.cdf (studentAt k m c) x) =
    fun x => ProbabilityTheory.cdf (studentLaw k) ((x - m) / c) := funext (cdf_studentAt hk hc)
  refine ⟨G, _, hG, hgen, fun Q _ hQ => ks_compares (st := (Student.StudentStat.ks t).statistic lib ⟨k, m, c⟩) (t := t)
    (F := fun x => ProbabilityTheory.cdf (studentAt k m c) x) ?_
    (H := studentAt k m c) (fun _ => rfl) (fun xs hne => ?_) rfl hQ (continuous_cdf (studentLaw k))⟩
  · rw [e]; exact studentAt_continuous hk
  · rw [e]; exact studentAt_edf hlib hk (s := .ks t) (e := .ks t) rfl (by simp) xs

/-- A law that is not the hypothesised one is at a positive distance. -/
theorem ksGap_pos {H Q : Measure ℝ} [IsProbabilityMeasure H] [IsProbabilityMeasure Q] (hne : Q ≠ H) :
    0 < ksGap .twoTailed (ProbabilityTheory.cdf H) Q ∧ ksGap .twoTailed (ProbabilityTheory.cdf H) H = 0 := by
  constructor
  · obtain ⟨x₀, δ, hδ, hs⟩ := EdfStat.Omnibus.sees (e := .ks .twoTailed) (by simp [EdfStat.Omnibus]) hne
    refine lt_of_lt_of_le (lt_of_lt_of_le hδ hs.abs) (le_ciSup (f := fun x =>
      |ProbabilityTheory.cdf Q x - ProbabilityTheory.cdf H x|) ⟨1, ?_⟩ x₀)
    rintro _ ⟨x, rfl⟩
    rw [abs_le]
    constructor <;> linarith [cdf_nonneg Q x, cdf_le_one Q x, cdf_nonneg H x, cdf_le_one H x]
  · simp [ksGap]

/-- The hypotheses can be met: for a gamma hypothesis of shape two the data of the hypothesised law are closer to it than the
simulated samples. -/
example : ∃ G P, (Gen.Family.gamma 2 3).simulator generatorClasses = .ok G ∧ (∀ n, G.generate n = .ok (iid n P)) ∧
    KsCompares ((Gamma.GammaStat.ks .twoTailed).statistic idealGamma ⟨2, 3⟩) .twoTailed (gammaMeasure 2 3) P :=
  C150_gamma (List.Perm.refl _) _ scipyGamma_ideal (by norm_num) (by norm_num)

example : ksGap .twoTailed (ProbabilityTheory.cdf (gammaMeasure 2 3)) (gammaMeasure 2 3) <
    ksGap .twoTailed (ProbabilityTheory.cdf (gammaMeasure 2 3)) (gammaMeasure 1 3) := by
  have h1 := isProbabilityMeasure_gammaMeasure (a := 1) (r := 3) one_pos (by norm_num)
  have h2 := isProbabilityMeasure_gammaMeasure (a := 2) (r := 3) (by norm_num) (by norm_num)
  have h := ksGap_pos (gamma_ne (a := 2) (r := 3) (by norm_num) (by norm_num) (by norm_num))
  rw [h.2]
  exact h.1

example : ∃ G P, (Gen.Family.normal 1 4).simulator generatorClasses = .ok G ∧ (∀ n, G.generate n = .ok (iid n P)) ∧
    KsCompares ((NormStat.ks .right).statistic scipyNorm "KS" none) .right (gaussianReal 0 1) P :=
  C150_normal (List.Perm.refl _) _ _ _ 1 (by norm_num)

example : ∃ G P, (Gen.Family.exponential 2).simulator generatorClasses = .ok G ∧ (∀ n, G.generate n = .ok (iid n P)) ∧
    KsCompares ((Exponent.ExpStat.ks .twoTailed).statistic "KS" none) .twoTailed (expMeasure 1) P :=
  C150_exponential (List.Perm.refl _) _ _ _ (by norm_num)

example : ∃ G P, (Gen.Family.logNormal 2 3).simulator generatorClasses = .ok G ∧ (∀ n, G.generate n = .ok (iid n P)) ∧
    KsCompares ((SimpleStat.ks .left).statistic scipyNorm 2 3 "KS") .left (logNormalLaw (Real.log 3) 2) P :=
  C150_logNormal (List.Perm.refl _) _ (by norm_num) (by norm_num) _

example : ∃ G P, (Gen.Family.student 5 1 2).simulator generatorClasses = .ok G ∧ (∀ n, G.generate n = .ok (iid n P)) ∧
    KsCompares ((Student.StudentStat.ks .twoTailed).statistic idealStudent ⟨5, 1, 2⟩) .twoTailed (studentAt 5 1 2) P :=
  C150_student (List.Perm.refl _) _ scipyStudent_ideal (by norm_num) (by norm_num)

end Pysatl.Props
