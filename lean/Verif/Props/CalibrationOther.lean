import Verif.Props.CalibrationSimple

/-! # C125: the other families -/

namespace Pysatl.Props

open Pysatl.Decision Pysatl.Resolver Pysatl.Spec Pysatl.Edf Pysatl.Graph Pysatl.Gen
open Pysatl.Uniform Pysatl.Weibull Pysatl.Normal Pysatl.Exponent
open MeasureTheory ProbabilityTheory

/-! ### Normal and exponential families: Kolmogorov-Smirnov and Cramer-von Mises -/

theorem level_normal {s : NormStat} (hs : (∃ t, s = .ks t) ∨ s = .cvm) (code : String)
    (params : Option (List (String × ℝ))) (classes : List GeneratorClass) (hp : classes.Perm generatorClasses)
    (m : ℝ) {v : ℝ} (hv : 0 < v) {n B : ℕ} (hn : 0 < n) (hB : 0 < B) :
    ∃ G M, (Gen.Family.normal m v).simulator classes = .ok G ∧ G.generate n = .ok M ∧
      KeepsLevel (s.statistic scipyNorm code params) (iid n (gaussianReal m v.toNNReal)) (M) B := by
  obtain ⟨G, hG, hgen⟩ := C111_normal classes hp m v hv.le n
  have hac : gaussianReal m v.toNNReal ≪ gaussianReal 0 1 :=
    (gaussianReal_absolutelyContinuous m (Real.toNNReal_pos.2 hv).ne').trans
      (gaussianReal_absolutelyContinuous' 0 one_ne_zero)
  obtain ⟨e, he, hval⟩ : ∃ e : EdfStat, e.least = 1 ∧
      ∀ x, (s.statistic scipyNorm code params).execute x = e.value Phi x := by
    rcases hs with ⟨t, rfl⟩ | rfl
    · refine ⟨.ks t, rfl, fun x => ?_⟩
      show ((ksOf t Phi x).map some >>= _) = ksOf t Phi x
      cases ksOf t Phi x <;> rfl
    · exact ⟨.cvm, rfl, fun x => rfl⟩
  refine ⟨G, _, hG, hgen, simple_level (s.statistic scipyNorm code params) e Phi_continuous (fun x => rfl) hac
    (he ▸ hn) hB (g := fun u => u) measurable_id (fun _ _ h => h) (.of_forall fun x => ?_)⟩
  rw [except_map_self, hval]

/-- **C125, normal family**: Kolmogorov-Smirnov and Cramer-von Mises, for all means and variances.  They compare the
sample with the standard normal law (see C73), but data and reference values come from one law. -/
theorem C125_level_normal {s : NormStat} (hs : (∃ t, s = .ks t) ∨ s = .cvm) (code : String)
    (params : Option (List (String × ℝ))) (classes : List GeneratorClass) (hp : classes.Perm generatorClasses)
    (m : ℝ) {v : ℝ} (hv : 0 < v) {n B : ℕ} (hn : 0 < n) (hB : 0 < B) (α : ℝ) :
    ∃ G M, (Gen.Family.normal m v).simulator classes = .ok G ∧ G.generate n = .ok M ∧
      ((iid n (gaussianReal m v.toNNReal)).prod (Measure.pi fun _ : Fin B => M))
        {ω | TestRejects (s.statistic scipyNorm code params) α ω.1 ω.2} ≤
        (rankBound s.alternative α B : ENNReal) / (B + 1 : ℕ) := by
  obtain ⟨G, M, h1, h2, h⟩ := level_normal hs code params classes hp m hv hn hB
  exact ⟨G, M, h1, h2, h.1 α⟩

/-- **C126, critical values, normal family**: Kolmogorov-Smirnov and Cramer-von Mises, for all means and variances.  They compare the
sample with the standard normal law (see C73), but data and reference values come from one law. -/
theorem C126_level_normal {s : NormStat} (hs : (∃ t, s = .ks t) ∨ s = .cvm) (code : String)
    (params : Option (List (String × ℝ))) (classes : List GeneratorClass) (hp : classes.Perm generatorClasses)
    (m : ℝ) {v : ℝ} (hv : 0 < v) {n B : ℕ} (hn : 0 < n) (hB : 0 < B) {α : ℝ}
    (h0 : 0 ≤ α) (h1 : α ≤ 1) :
    ∃ G M, (Gen.Family.normal m v).simulator classes = .ok G ∧ G.generate n = .ok M ∧
      ((iid n (gaussianReal m v.toNNReal)).prod (Measure.pi fun _ : Fin B => M))
        {ω | CvRejects (s.statistic scipyNorm code params) α ω.1 ω.2} ≤
        (criticalBound s.alternative α B : ENNReal) / (B + 1 : ℕ) := by
  obtain ⟨G, M, g1, g2, h⟩ := level_normal hs code params classes hp m hv hn hB
  exact ⟨G, M, g1, g2, h.2 α h0 h1⟩

example : ∃ G M, (Gen.Family.normal 3 7).simulator generatorClasses = .ok G ∧ G.generate 20 = .ok M ∧
    ((iid 20 (gaussianReal 3 (Real.toNNReal 7))).prod (Measure.pi fun _ : Fin 99 => M))
      {ω | TestRejects ((NormStat.ks .twoTailed).statistic scipyNorm "KS" none) (1 / 20) ω.1 ω.2} ≤
      (rankBound .twoTailed (1 / 20) 99 : ENNReal) / (99 + 1 : ℕ) :=
  C125_level_normal (.inl ⟨_, rfl⟩) _ _ _ (List.Perm.refl _) 3 (by norm_num) (by norm_num) (by norm_num) _

theorem exp_ac {r r₀ : ℝ} (hr₀ : 0 < r₀) : expMeasure r ≪ expMeasure r₀ := by
  refine Measure.AbsolutelyContinuous.mk fun s hs h => ?_
  have hm : ∀ q : ℝ, Measurable (gammaPDF 1 q) := fun q => (measurable_gammaPDFReal 1 q).ennreal_ofReal
  change volume.withDensity (gammaPDF 1 r₀) s = 0 at h
  show volume.withDensity (gammaPDF 1 r) s = 0
  rw [withDensity_apply_eq_zero (hm _)] at h ⊢
  refine measure_mono_null ?_ h
  intro x hx
  refine ⟨?_, hx.2⟩
  have hx0 : 0 ≤ x := by
    by_contra hc
    exact hx.1 (gammaPDF_of_neg (not_le.1 hc))
  show gammaPDF 1 r₀ x ≠ 0
  rw [gammaPDF_of_nonneg hx0, ne_eq, ENNReal.ofReal_eq_zero, not_le]
  have := Real.Gamma_pos_of_pos one_pos
  simp only [sub_self, Real.rpow_zero, Real.rpow_one]
  positivity

theorem cdf_exp {r : ℝ} (hr : 0 < r) (x : ℝ) : cdf (expMeasure r) x = exponCdf r x := by
  rw [cdf_expMeasure_eq hr, exponCdf]
  by_cases h : 0 < x
  · rw [if_pos h.le, if_neg (not_le.2 h)]
  · rw [if_pos (not_lt.1 h)]
    split_ifs with h0
    · have : x = 0 := le_antisymm (not_lt.1 h) h0
      simp [this]
    · rfl

theorem level_exponential {r : ℝ} (hr : 0 < r) {s : ExpStat} (hs : (∃ t, s = .ks t) ∨ s = .cvm r) (code : String)
    (params : Option (List (String × ℝ))) (classes : List GeneratorClass) (hp : classes.Perm generatorClasses)
    {n B : ℕ} (hn : 0 < n) (hB : 0 < B) :
    ∃ G M, (Gen.Family.exponential r).simulator classes = .ok G ∧ G.generate n = .ok M ∧
      KeepsLevel (s.statistic code params) (iid n (expMeasure r)) (M) B := by
  have hpr : IsProbabilityMeasure (expMeasure r) := isProbabilityMeasure_expMeasure hr
  obtain ⟨G, hG, hgen⟩ := C111_exponential classes hp r hr n
  obtain ⟨e, q, he, hq, hval⟩ : ∃ (e : EdfStat) (q : ℝ), e.least = 1 ∧ 0 < q ∧
      ∀ x, (s.statistic code params).execute x = e.value (exponCdf q) x := by
    rcases hs with ⟨t, rfl⟩ | rfl
    · exact ⟨.ks t, 1, rfl, one_pos, fun x => rfl⟩
    · exact ⟨.cvm, r, rfl, hr, fun x => rfl⟩
  have hpq : IsProbabilityMeasure (expMeasure q) := isProbabilityMeasure_expMeasure hq
  have hc : Continuous (exponCdf q) := by
    have := continuous_cdf (expMeasure q)
    simp only [cdf_exp hq] at this
    exact this
  refine ⟨G, _, hG, hgen, simple_level (s.statistic code params) e hc (cdf_exp hq) (exp_ac hq)
    (he ▸ hn) hB (g := fun u => u) measurable_id (fun _ _ h => h) (.of_forall fun x => ?_)⟩
  rw [except_map_self, hval]

/-- **C125, exponential family**: Kolmogorov-Smirnov and Cramer-von Mises, for all rates. -/
theorem C125_level_exponential {r : ℝ} (hr : 0 < r) {s : ExpStat} (hs : (∃ t, s = .ks t) ∨ s = .cvm r) (code : String)
    (params : Option (List (String × ℝ))) (classes : List GeneratorClass) (hp : classes.Perm generatorClasses)
    {n B : ℕ} (hn : 0 < n) (hB : 0 < B) (α : ℝ) :
    ∃ G M, (Gen.Family.exponential r).simulator classes = .ok G ∧ G.generate n = .ok M ∧
      ((iid n (expMeasure r)).prod (Measure.pi fun _ : Fin B => M))
        {ω | TestRejects (s.statistic code params) α ω.1 ω.2} ≤
        (rankBound s.alternative α B : ENNReal) / (B + 1 : ℕ) := by
  obtain ⟨G, M, h1, h2, h⟩ := level_exponential hr hs code params classes hp hn hB
  exact ⟨G, M, h1, h2, h.1 α⟩

/-- **C126, critical values, exponential family**: Kolmogorov-Smirnov and Cramer-von Mises, for all rates. -/
theorem C126_level_exponential {r : ℝ} (hr : 0 < r) {s : ExpStat} (hs : (∃ t, s = .ks t) ∨ s = .cvm r) (code : String)
    (params : Option (List (String × ℝ))) (classes : List GeneratorClass) (hp : classes.Perm generatorClasses)
    {n B : ℕ} (hn : 0 < n) (hB : 0 < B) {α : ℝ}
    (h0 : 0 ≤ α) (h1 : α ≤ 1) :
    ∃ G M, (Gen.Family.exponential r).simulator classes = .ok G ∧ G.generate n = .ok M ∧
      ((iid n (expMeasure r)).prod (Measure.pi fun _ : Fin B => M))
        {ω | CvRejects (s.statistic code params) α ω.1 ω.2} ≤
        (criticalBound s.alternative α B : ENNReal) / (B + 1 : ℕ) := by
  obtain ⟨G, M, g1, g2, h⟩ := level_exponential hr hs code params classes hp hn hB
  exact ⟨G, M, g1, g2, h.2 α h0 h1⟩

example : ∃ G M, (Gen.Family.exponential 3).simulator generatorClasses = .ok G ∧ G.generate 20 = .ok M ∧
    ((iid 20 (expMeasure 3)).prod (Measure.pi fun _ : Fin 99 => M))
      {ω | TestRejects ((ExpStat.ks .twoTailed).statistic "KS" none) (1 / 20) ω.1 ω.2} ≤
      (rankBound .twoTailed (1 / 20) 99 : ENNReal) / (99 + 1 : ℕ) :=
  C125_level_exponential (by norm_num) (.inl ⟨_, rfl⟩) _ _ _ (List.Perm.refl _) (by norm_num) (by norm_num) _

/-! ### Gamma family -/

theorem gamma_rvs_one {β : ℝ} (hβ : 0 < β) :
    ({ name := "gamma", shapes := [1], scale := 1 / β } : Scipy).rvs = .ok (gammaMeasure 1 β) := by
  rw [rvs_ok (d := { name := "gamma", shapes := [1], scale := 1 / β }) (by exact zero_lt_one (α := ℝ))
    (by exact (one_div_pos.2 hβ).le)]
  show Except.ok ((ofDensity fun x =>
      if 0 ≤ x then x ^ ((1 : ℝ) - 1) * Real.exp (-x) / Real.Gamma 1 else 0).map fun z => 0 + 1 / β * z) = _
  simp only [sub_self, Real.rpow_zero, one_mul, Real.Gamma_one, div_one]
  rw [exp_of_density hβ]
  rfl

/-- The class as a statistic of the transformed sample. -/
def _root_.Pysatl.Gamma.GammaStat.edf : Gamma.GammaStat → Option EdfStat
  | .ks t => some (.ks t)
  | .andersonDarling => some .ad
  | .cvm => some .cvm
  | .watson => some .watson
  | .kuiper => some .kuiper
  | .greenwood => some .greenwood
  | .moran => some .moran
  | .minToshiyuki => some .minToshiyuki
  | _ => none

theorem watsonGamma_eq {vals : List ℝ} (hne : vals ≠ []) : watsonGamma vals = .ok (watsonBeta vals) := by
  have hpos : 0 < vals.length := List.length_pos_iff.2 hne
  have hn : (0 : ℝ) < vals.length := by exact_mod_cast hpos
  unfold watsonGamma watsonBeta cvm mean
  rw [if_neg (by omega)]
  congr 1
  have : ∀ i : ℕ, ∀ v : ℝ, (v - (2 * ((i : ℝ) + 1) - 1) / (2 * vals.length)) ^ 2 =
      ((2 * ((i : ℝ) + 1) - 1) / (2 * vals.length) - v) ^ 2 := fun i v => by ring
  simp only [this]
  generalize (vals.mapIdx fun i v => ((2 * ((i : ℝ) + 1) - 1) / (2 * (vals.length : ℝ)) - v) ^ 2).sum = S
  field_simp

/-- `scipy.stats.gamma` as documented. -/
noncomputable def idealGamma : Gamma.GammaLib where
  cdf a sc x := cdf (gammaMeasure a (1 / sc)) x
  logcdf a sc x := Real.log (cdf (gammaMeasure a (1 / sc)) x)
  logsf a sc x := Real.log (1 - cdf (gammaMeasure a (1 / sc)) x)
  ppf _ _ q := q

theorem scipyGamma_ideal : ScipyGamma idealGamma where
  cdf _ _ _ := rfl
  logcdf _ _ _ := rfl
  logsf _ _ _ := rfl

theorem gamma_edf {lib : Gamma.GammaLib} (hlib : ScipyGamma lib) {p : Gamma.Params} (ha : 0 < p.alpha) (hb : 0 < p.beta)
    {s : Gamma.GammaStat} {e : EdfStat} (hs : s.edf = some e) {xs : List ℝ} (hne : xs ≠ []) :
    s.value lib p xs = e.value (fun x => cdf (gammaMeasure p.alpha p.beta) x) xs := by
  have hb' : 0 < 1 / p.beta := one_div_pos.2 hb
  have h1 : lib.cdf p.alpha (1 / p.beta) = fun x => cdf (gammaMeasure p.alpha p.beta) x := by
    funext x; rw [hlib.cdf ha hb', one_div_one_div]
  have hv : Gamma.vals lib p xs = (sort xs).map fun x => cdf (gammaMeasure p.alpha p.beta) x := by
    rw [Gamma.vals, h1]
  rw [EdfStat.value_eq, ← hv]
  cases s <;> simp only [Gamma.GammaStat.edf, Option.some.injEq, reduceCtorEq] at hs <;> subst hs <;>
    simp only [Gamma.GammaStat.value, EdfStat.ofVals]
  case andersonDarling =>
    rw [adOf, hv, List.map_map, List.map_map]
    congr 3
    · funext x; rw [hlib.logcdf ha hb', h1]; rfl
    · funext x; rw [hlib.logsf ha hb', h1]; rfl
  case watson =>
    refine watsonGamma_eq ?_
    rw [hv]
    intro h
    have h1 := congrArg List.length h
    rw [List.length_map, (sort_perm xs).length_eq] at h1
    exact hne (List.length_eq_zero_iff.1 h1)

instance (a r : ℝ) : NullSingletonClass (gammaMeasure a r) := by unfold gammaMeasure; infer_instance

theorem level_gamma {lib : Gamma.GammaLib} (hlib : ScipyGamma lib) {β : ℝ} (hβ : 0 < β)
    {s : Gamma.GammaStat} {e : EdfStat} (hs : s.edf = some e) (classes : List GeneratorClass)
    (hp : classes.Perm generatorClasses) {n B : ℕ} (hn : e.least ≤ n) (hB : 0 < B) :
    ∃ G M, (Gen.Family.gamma 1 β).simulator classes = .ok G ∧ G.generate n = .ok M ∧
      KeepsLevel (s.statistic lib ⟨1, β⟩) (iid n (gammaMeasure 1 β)) (M) B := by
  have hpr := isProbabilityMeasure_gammaMeasure one_pos hβ
  obtain ⟨G, hG, hgen⟩ := simulates (simulator_law hp (.gamma 1 β)) (gamma_rvs_one hβ) n
  refine ⟨G, _, hG, hgen, simple_level (s.statistic lib ⟨1, β⟩) e (continuous_cdf (gammaMeasure 1 β)) (fun _ => rfl)
    Measure.AbsolutelyContinuous.rfl hn hB (g := fun u => u) measurable_id (fun _ _ h => h) (.of_forall fun x => ?_)⟩
  have hn0 : 0 < n := lt_of_lt_of_le (by cases e <;> simp [EdfStat.least]) hn
  rw [except_map_self]
  exact gamma_edf hlib (p := ⟨1, β⟩) one_pos hβ hs (by rw [Ne, List.ofFn_eq_nil_iff]; omega)

/-- **C125, gamma family, what holds**: shape `1`, which is the shape the simulated samples always have.  Missing: every
other shape (`C125_refuted_gamma`). -/
theorem C125_level_gamma_partial {lib : Gamma.GammaLib} (hlib : ScipyGamma lib) {β : ℝ} (hβ : 0 < β)
    {s : Gamma.GammaStat} {e : EdfStat} (hs : s.edf = some e) (classes : List GeneratorClass)
    (hp : classes.Perm generatorClasses) {n B : ℕ} (hn : e.least ≤ n) (hB : 0 < B) (α : ℝ) :
    ∃ G M, (Gen.Family.gamma 1 β).simulator classes = .ok G ∧ G.generate n = .ok M ∧
      ((iid n (gammaMeasure 1 β)).prod (Measure.pi fun _ : Fin B => M))
        {ω | TestRejects (s.statistic lib ⟨1, β⟩) α ω.1 ω.2} ≤
        (rankBound s.alternative α B : ENNReal) / (B + 1 : ℕ) := by
  obtain ⟨G, M, h1, h2, h⟩ := level_gamma hlib hβ hs classes hp hn hB
  exact ⟨G, M, h1, h2, h.1 α⟩

/-- **C126, critical values, gamma family, what holds**: shape `1`, which is the shape the simulated samples always have.  Missing: every
other shape. -/
theorem C126_level_gamma_partial {lib : Gamma.GammaLib} (hlib : ScipyGamma lib) {β : ℝ} (hβ : 0 < β)
    {s : Gamma.GammaStat} {e : EdfStat} (hs : s.edf = some e) (classes : List GeneratorClass)
    (hp : classes.Perm generatorClasses) {n B : ℕ} (hn : e.least ≤ n) (hB : 0 < B) {α : ℝ}
    (h0 : 0 ≤ α) (h1 : α ≤ 1) :
    ∃ G M, (Gen.Family.gamma 1 β).simulator classes = .ok G ∧ G.generate n = .ok M ∧
      ((iid n (gammaMeasure 1 β)).prod (Measure.pi fun _ : Fin B => M))
        {ω | CvRejects (s.statistic lib ⟨1, β⟩) α ω.1 ω.2} ≤
        (criticalBound s.alternative α B : ENNReal) / (B + 1 : ℕ) := by
  obtain ⟨G, M, g1, g2, h⟩ := level_gamma hlib hβ hs classes hp hn hB
  exact ⟨G, M, g1, g2, h.2 α h0 h1⟩

example : ∃ (lib : Gamma.GammaLib) (G : Generator) (M : Measure (Fin 20 → ℝ)),
    (Gen.Family.gamma 1 2).simulator generatorClasses = .ok G ∧
    G.generate 20 = .ok M ∧ ((iid 20 (gammaMeasure 1 2)).prod (Measure.pi fun _ : Fin 99 => M))
      {ω | TestRejects (Gamma.GammaStat.moran.statistic lib ⟨1, 2⟩) (1 / 20) ω.1 ω.2} ≤
      (rankBound .right (1 / 20) 99 : ENNReal) / (99 + 1 : ℕ) :=
  ⟨idealGamma, C125_level_gamma_partial scipyGamma_ideal (by norm_num) (s := .moran) rfl _ (List.Perm.refl _)
    (by simp [EdfStat.least]) (by norm_num) _⟩

/-! ### Beta family -/

/-- The class as a statistic of the transformed sample. -/
def _root_.Pysatl.Beta.BetaStat.edf : Beta.BetaStat → Option EdfStat
  | .ks t => some (.ks t)
  | .andersonDarling => some .ad
  | .cvm => some .cvm
  | .lilliefors => some (.ks .twoTailed)
  | .watson => some .watson
  | .kuiper => some .kuiper
  | _ => none

theorem beta_edf {lib : Beta.BetaLib} (hlib : ScipyBetaCdf lib) {p : Beta.Params} (ha : 0 < p.alpha) (hb : 0 < p.beta)
    {s : Beta.BetaStat} {e : EdfStat} (hs : s.edf = some e) {xs : List ℝ} (hx : ∀ x ∈ xs, 0 ≤ x ∧ x ≤ 1) :
    s.value lib p xs = e.value (fun x => cdf (betaMeasure p.alpha p.beta) x) xs := by
  have h1 : lib.cdf p.alpha p.beta = fun x => cdf (betaMeasure p.alpha p.beta) x := by
    funext x; rw [hlib.cdf ha hb]
  have hv : Beta.vals lib p xs = (sort xs).map fun x => cdf (betaMeasure p.alpha p.beta) x := by
    rw [Beta.vals, h1]
  rw [EdfStat.value_eq, ← hv]
  cases s <;> simp only [Beta.BetaStat.edf, Option.some.injEq, reduceCtorEq] at hs <;> subst hs <;>
    simp only [Beta.BetaStat.value, beta_validate_ok hx, bind, Except.bind, pure, Except.pure, EdfStat.ofVals]
  case andersonDarling =>
    rw [adOf, hv, List.map_map, List.map_map]
    congr 3
    · funext x; rw [hlib.logcdf ha hb, h1]; rfl
    · funext x; rw [hlib.logsf ha hb, h1]; rfl

theorem beta_rvs {a b : ℝ} (ha : 0 < a) (hb : 0 < b) :
    ({ name := "beta", shapes := [a, b] } : Scipy).rvs = .ok (betaMeasure a b) := by
  rw [rvs_ok (d := { name := "beta", shapes := [a, b] }) (by exact ⟨ha, hb⟩) (by exact zero_le_one (α := ℝ))]
  show Except.ok ((ofDensity fun x => if 0 < x ∧ x < 1 then
    Real.Gamma (a + b) * x ^ (a - 1) * (1 - x) ^ (b - 1) / (Real.Gamma a * Real.Gamma b)
    else 0).map fun z => 0 + 1 * z) = _
  simp only [zero_add, one_mul, Measure.map_id']
  congr 1
  rw [ofDensity, betaMeasure]
  congr 1
  funext x
  rw [betaPDF, betaPDFReal]
  congr 1
  split_ifs with h
  · rw [ProbabilityTheory.beta]
    have := Real.Gamma_pos_of_pos ha
    have := Real.Gamma_pos_of_pos hb
    have := Real.Gamma_pos_of_pos (add_pos ha hb)
    field_simp
  · rfl

instance (a b : ℝ) : NullSingletonClass (betaMeasure a b) := by unfold betaMeasure; infer_instance

theorem beta_inside {a b : ℝ} : ∀ᵐ x ∂(betaMeasure a b), 0 ≤ x ∧ x ≤ 1 := by
  have hm : Measurable (betaPDF a b) := (measurable_betaPDFReal a b).ennreal_ofReal
  unfold betaMeasure
  rw [ae_withDensity_iff hm]
  refine .of_forall fun x hx => ?_
  by_contra hc
  refine hx ?_
  rw [betaPDF, betaPDFReal, if_neg, ENNReal.ofReal_zero]
  exact fun h => hc ⟨h.1.le, h.2.le⟩

theorem level_beta {lib : Beta.BetaLib} (hlib : ScipyBetaCdf lib)
    {s : Beta.BetaStat} {e : EdfStat} (hs : s.edf = some e) (code : String) (classes : List GeneratorClass)
    (hp : classes.Perm generatorClasses) {n B : ℕ} (hn : e.least ≤ n) (hB : 0 < B) :
    ∃ G M, (Gen.Family.beta 1 1).simulator classes = .ok G ∧ G.generate n = .ok M ∧
      KeepsLevel (s.statistic lib ⟨1, 1⟩ code) (iid n (betaMeasure 1 1)) (M) B := by
  have hpr : IsProbabilityMeasure (betaMeasure 1 1) := isProbabilityMeasureBeta one_pos one_pos
  obtain ⟨G, hG, hgen⟩ := simulates (simulator_law hp (.beta 1 1)) (beta_rvs one_pos one_pos) n
  refine ⟨G, _, hG, hgen, simple_level (s.statistic lib ⟨1, 1⟩ code) e (continuous_cdf (betaMeasure 1 1)) (fun _ => rfl)
    Measure.AbsolutelyContinuous.rfl hn hB (g := fun u => u) measurable_id (fun _ _ h => h) ?_⟩
  filter_upwards [iid_ae (n := n) (beta_inside (a := 1) (b := 1))] with x hx
  rw [except_map_self]
  refine beta_edf hlib (p := ⟨1, 1⟩) one_pos one_pos hs fun t ht => ?_
  obtain ⟨i, rfl⟩ := (List.mem_ofFn' _ _).1 ht
  exact hx i

/-- **C125, beta family, what holds**: both shapes `1`.  Missing: all other shapes, for which the simulated samples
have shapes `1` and `1` too. -/
theorem C125_level_beta_partial {lib : Beta.BetaLib} (hlib : ScipyBetaCdf lib)
    {s : Beta.BetaStat} {e : EdfStat} (hs : s.edf = some e) (code : String) (classes : List GeneratorClass)
    (hp : classes.Perm generatorClasses) {n B : ℕ} (hn : e.least ≤ n) (hB : 0 < B) (α : ℝ) :
    ∃ G M, (Gen.Family.beta 1 1).simulator classes = .ok G ∧ G.generate n = .ok M ∧
      ((iid n (betaMeasure 1 1)).prod (Measure.pi fun _ : Fin B => M))
        {ω | TestRejects (s.statistic lib ⟨1, 1⟩ code) α ω.1 ω.2} ≤
        (rankBound s.alternative α B : ENNReal) / (B + 1 : ℕ) := by
  obtain ⟨G, M, h1, h2, h⟩ := level_beta hlib hs code classes hp hn hB
  exact ⟨G, M, h1, h2, h.1 α⟩

/-- **C126, critical values, beta family, what holds**: both shapes `1`.  Missing: all other shapes, for which the simulated samples
have shapes `1` and `1` too. -/
theorem C126_level_beta_partial {lib : Beta.BetaLib} (hlib : ScipyBetaCdf lib)
    {s : Beta.BetaStat} {e : EdfStat} (hs : s.edf = some e) (code : String) (classes : List GeneratorClass)
    (hp : classes.Perm generatorClasses) {n B : ℕ} (hn : e.least ≤ n) (hB : 0 < B) {α : ℝ}
    (h0 : 0 ≤ α) (h1 : α ≤ 1) :
    ∃ G M, (Gen.Family.beta 1 1).simulator classes = .ok G ∧ G.generate n = .ok M ∧
      ((iid n (betaMeasure 1 1)).prod (Measure.pi fun _ : Fin B => M))
        {ω | CvRejects (s.statistic lib ⟨1, 1⟩ code) α ω.1 ω.2} ≤
        (criticalBound s.alternative α B : ENNReal) / (B + 1 : ℕ) := by
  obtain ⟨G, M, g1, g2, h⟩ := level_beta hlib hs code classes hp hn hB
  exact ⟨G, M, g1, g2, h.2 α h0 h1⟩

example : ∃ G M, (Gen.Family.beta 1 1).simulator generatorClasses = .ok G ∧ G.generate 20 = .ok M ∧
    ((iid 20 (betaMeasure 1 1)).prod (Measure.pi fun _ : Fin 99 => M))
      {ω | TestRejects (Beta.BetaStat.watson.statistic idealBeta ⟨1, 1⟩ "W_BETA") (1 / 20) ω.1 ω.2} ≤
      (rankBound .right (1 / 20) 99 : ENNReal) / (99 + 1 : ℕ) :=
  C125_level_beta_partial scipyBetaCdf_ideal (s := .watson) rfl _ _ (List.Perm.refl _) (by simp [EdfStat.least])
    (by norm_num) _

/-! ### Student family -/

/-- The class as a statistic of the transformed sample. -/
def _root_.Pysatl.Student.StudentStat.edf : Student.StudentStat → Option EdfStat
  | .ks t => some (.ks t)
  | .andersonDarling => some .ad
  | .cvm => some .cvm
  | .kuiper => some .kuiper
  | .watson => some .watson
  | .lilliefors => some (.ks .twoTailed)
  | _ => none

/-- The documented functions of `scipy.stats.t`. -/
structure ScipyStudent (lib : Student.StudentLib) : Prop where
  cdf : ∀ {k : ℝ}, 0 < k → ∀ x, lib.cdf k x = ProbabilityTheory.cdf (studentLaw k) x
  logcdf : ∀ {k : ℝ}, 0 < k → ∀ x, lib.logcdf k x = Real.log (lib.cdf k x)
  logsf : ∀ {k : ℝ}, 0 < k → ∀ x, lib.logsf k x = Real.log (1 - lib.cdf k x)

theorem student_edf {lib : Student.StudentLib} (hlib : ScipyStudent lib) {k : ℝ} (hk : 0 < k)
    {s : Student.StudentStat} {e : EdfStat} (hs : s.edf = some e) (xs : List ℝ) :
    s.value lib ⟨k, 0, 1⟩ xs = e.value (fun x => cdf (studentLaw k) x) xs := by
  have h1 : lib.cdf k = fun x => cdf (studentLaw k) x := by
    funext x; rw [hlib.cdf hk]
  have h0 : Student.standardized ⟨k, 0, 1⟩ xs = sort xs := by simp [Student.standardized]
  rw [EdfStat.value_eq, ← h1]
  cases s <;> simp only [Student.StudentStat.edf, Option.some.injEq, reduceCtorEq] at hs <;> subst hs <;>
    simp only [Student.StudentStat.value, EdfStat.ofVals, h0]
  case andersonDarling =>
    rw [List.map_map, List.map_map]
    congr 3
    · funext x; rw [hlib.logcdf hk]; rfl
    · funext x; rw [hlib.logsf hk]; rfl

theorem student_prob {k : ℝ} (hk : 0 < k) : IsProbabilityMeasure (studentLaw k) := by
  have := student_probability hk
  have e : studentLaw k = density fun x =>
      Real.Gamma ((k + 1) / 2) / (√(Real.pi * k) * Real.Gamma (k / 2)) * (1 + x ^ 2 / k) ^ (-(k + 1) / 2) :=
    density_congr fun x => by rw [mul_comm Real.pi, neg_div]
  rw [e]
  exact this

instance (k : ℝ) : NullSingletonClass (studentLaw k) := by unfold studentLaw density; infer_instance

theorem level_student {lib : Student.StudentLib} (hlib : ScipyStudent lib) {k : ℝ} (hk : 0 < k)
    {s : Student.StudentStat} {e : EdfStat} (hs : s.edf = some e) (classes : List GeneratorClass)
    (hp : classes.Perm generatorClasses) {n B : ℕ} (hn : e.least ≤ n) (hB : 0 < B) :
    ∃ G M, (Gen.Family.student k 0 1).simulator classes = .ok G ∧ G.generate n = .ok M ∧
      KeepsLevel (s.statistic lib ⟨k, 0, 1⟩) (iid n (studentLaw k)) (M) B := by
  have hpr := student_prob hk
  obtain ⟨G, hG, hgen⟩ := (C111_degreesOfFreedom classes hp k hk n).2
  refine ⟨G, _, hG, hgen, simple_level (s.statistic lib ⟨k, 0, 1⟩) e (continuous_cdf (studentLaw k)) (fun _ => rfl)
    Measure.AbsolutelyContinuous.rfl hn hB (g := fun u => u) measurable_id (fun _ _ h => h) (.of_forall fun x => ?_)⟩
  rw [except_map_self]
  exact student_edf hlib hk hs _

/-- **C125, Student family, what holds**: location `0` and scale `1`.  Missing: other locations and scales, which are not
passed to the generator. -/
theorem C125_level_student_partial {lib : Student.StudentLib} (hlib : ScipyStudent lib) {k : ℝ} (hk : 0 < k)
    {s : Student.StudentStat} {e : EdfStat} (hs : s.edf = some e) (classes : List GeneratorClass)
    (hp : classes.Perm generatorClasses) {n B : ℕ} (hn : e.least ≤ n) (hB : 0 < B) (α : ℝ) :
    ∃ G M, (Gen.Family.student k 0 1).simulator classes = .ok G ∧ G.generate n = .ok M ∧
      ((iid n (studentLaw k)).prod (Measure.pi fun _ : Fin B => M))
        {ω | TestRejects (s.statistic lib ⟨k, 0, 1⟩) α ω.1 ω.2} ≤
        (rankBound s.alternative α B : ENNReal) / (B + 1 : ℕ) := by
  obtain ⟨G, M, h1, h2, h⟩ := level_student hlib hk hs classes hp hn hB
  exact ⟨G, M, h1, h2, h.1 α⟩

/-- **C126, critical values, Student family, what holds**: location `0` and scale `1`.  Missing: other locations and scales, which are not
passed to the generator. -/
theorem C126_level_student_partial {lib : Student.StudentLib} (hlib : ScipyStudent lib) {k : ℝ} (hk : 0 < k)
    {s : Student.StudentStat} {e : EdfStat} (hs : s.edf = some e) (classes : List GeneratorClass)
    (hp : classes.Perm generatorClasses) {n B : ℕ} (hn : e.least ≤ n) (hB : 0 < B) {α : ℝ}
    (h0 : 0 ≤ α) (h1 : α ≤ 1) :
    ∃ G M, (Gen.Family.student k 0 1).simulator classes = .ok G ∧ G.generate n = .ok M ∧
      ((iid n (studentLaw k)).prod (Measure.pi fun _ : Fin B => M))
        {ω | CvRejects (s.statistic lib ⟨k, 0, 1⟩) α ω.1 ω.2} ≤
        (criticalBound s.alternative α B : ENNReal) / (B + 1 : ℕ) := by
  obtain ⟨G, M, g1, g2, h⟩ := level_student hlib hk hs classes hp hn hB
  exact ⟨G, M, g1, g2, h.2 α h0 h1⟩

/-- `scipy.stats.t` as documented. -/
noncomputable def idealStudent : Student.StudentLib where
  cdf k x := cdf (studentLaw k) x
  logcdf k x := Real.log (cdf (studentLaw k) x)
  logsf k x := Real.log (1 - cdf (studentLaw k) x)
  ppf _ q := q

theorem scipyStudent_ideal : ScipyStudent idealStudent where
  cdf _ _ := rfl
  logcdf _ _ := rfl
  logsf _ _ := rfl

example : ∃ G M, (Gen.Family.student 5 0 1).simulator generatorClasses = .ok G ∧ G.generate 20 = .ok M ∧
    ((iid 20 (studentLaw 5)).prod (Measure.pi fun _ : Fin 99 => M))
      {ω | TestRejects (Student.StudentStat.andersonDarling.statistic idealStudent ⟨5, 0, 1⟩) (1 / 20) ω.1 ω.2} ≤
      (rankBound .right (1 / 20) 99 : ENNReal) / (99 + 1 : ℕ) :=
  C125_level_student_partial scipyStudent_ideal (by norm_num) (s := .andersonDarling) rfl _ (List.Perm.refl _)
    (by simp [EdfStat.least]) (by norm_num) _

/-! ### What fails -/

/-- When no simulated value exceeds the observed one, the p-value of a right-tailed criterion is zero and the test
rejects at every level. -/
theorem rejects_of_extreme {n B : ℕ} (hn : 0 < n) (hB : 0 < B) {st : Statistic ℝ} (ht : st.alternative = .right)
    {α : ℝ} (hα : 0 ≤ α) {x : Fin n → ℝ} {y : Fin B → Fin n → ℝ} {d : ℝ} (hx : st.execute (List.ofFn x) = .ok d)
    (hy : ∀ j, ∃ c, st.execute (List.ofFn (y j)) = .ok c ∧ c ≤ d) : TestRejects st α x y := by
  rw [testRejects_iff hn, ht]
  refine ⟨⟨d, hx⟩, fun j => ⟨_, (hy j).choose_spec.1⟩, 0, ?_, hα⟩
  have hne : (List.ofFn fun j => outcomeVal (st.execute (List.ofFn (y j)))) ≠ [] := by
    rw [Ne, List.ofFn_eq_nil_iff]; omega
  show rightPValue _ _ = _
  rw [rightPValue_eq hne, hx]
  congr 1
  unfold fracGt
  rw [List.filter_eq_nil_iff.2]
  · simp
  · intro c hc
    obtain ⟨j, rfl⟩ := (List.mem_ofFn' _ _).1 hc
    obtain ⟨c, hc, hcd⟩ := hy j
    simpa [hc, outcomeVal] using hcd

theorem dPlus_single (v : ℝ) : dPlus [v] = .ok (1 - v) := by
  rw [dPlus_eq_ok]
  refine ⟨⟨0, by simp, by simp⟩, fun i h => ?_⟩
  have : i = 0 := by simpa using h
  subst this
  simp

theorem dMinus_single (v : ℝ) : dMinus [v] = .ok v := by
  rw [dMinus_eq_ok]
  refine ⟨⟨0, by simp, by simp⟩, fun i h => ?_⟩
  have : i = 0 := by simpa using h
  subst this
  simp

theorem sort_single (x : ℝ) : sort [x] = [x] := List.perm_singleton.1 (sort_perm [x])

/-- The survival function of the exponential law. -/
theorem exp_tail {β : ℝ} (hβ : 0 < β) {x : ℝ} (hx : 0 ≤ x) :
    gammaMeasure 1 β (Set.Ici x) = ENNReal.ofReal (Real.exp (-(β * x))) := by
  have hpr := isProbabilityMeasure_gammaMeasure one_pos hβ
  have h1 : gammaMeasure 1 β (Set.Iic x) = ENNReal.ofReal (1 - Real.exp (-(β * x))) := by
    have h := cdf_expMeasure_eq hβ x
    rw [if_pos hx] at h
    rw [← ofReal_cdf, ← h]
    rfl
  have h2 : gammaMeasure 1 β (Set.Ici x) = gammaMeasure 1 β (Set.Iic x)ᶜ := by
    rw [Set.compl_Iic]
    exact measure_congr Ioi_ae_eq_Ici.symm
  have hle : Real.exp (-(β * x)) ≤ 1 := Real.exp_le_one_iff.2 (by nlinarith [mul_nonneg hβ.le hx])
  rw [h2, prob_compl_eq_one_sub measurableSet_Iic, h1, ← ENNReal.ofReal_one,
    ← ENNReal.ofReal_sub _ (by linarith)]
  congr 1
  ring

/-- The probability that a gamma variable of shape `a` is below `B` independent exponential ones of the same rate. -/
theorem gamma_below_exp {a β : ℝ} (ha : 0 < a) (hβ : 0 < β) (B : ℕ) :
    ∫⁻ x, (gammaMeasure 1 β (Set.Ici x)) ^ B ∂(gammaMeasure a β) = ENNReal.ofReal (((B : ℝ) + 1) ^ (-a)) := by
  have hm : Measurable (gammaPDF a β) := (measurable_gammaPDFReal a β).ennreal_ofReal
  have hanti : Measurable fun x : ℝ => (gammaMeasure 1 β (Set.Ici x)) ^ B := by
    have : Antitone fun x : ℝ => gammaMeasure 1 β (Set.Ici x) := fun x y h => measure_mono (Set.Ici_subset_Ici.2 h)
    exact this.measurable.pow_const B
  have hB : (0 : ℝ) < (B : ℝ) + 1 := by positivity
  have hβB : 0 < β * ((B : ℝ) + 1) := mul_pos hβ hB
  have hpt : ∀ x, gammaPDF a β x * (gammaMeasure 1 β (Set.Ici x)) ^ B =
      ENNReal.ofReal (((B : ℝ) + 1) ^ (-a)) * gammaPDF a (β * ((B : ℝ) + 1)) x := by
    intro x
    by_cases hx : 0 ≤ x
    · have hG := Real.Gamma_pos_of_pos ha
      have hBa : 0 < ((B : ℝ) + 1) ^ a := Real.rpow_pos_of_pos hB a
      rw [exp_tail hβ hx, gammaPDF_of_nonneg hx, gammaPDF_of_nonneg hx, ← ENNReal.ofReal_pow (Real.exp_nonneg _),
        ← ENNReal.ofReal_mul (by positivity), ← ENNReal.ofReal_mul (by positivity), ← Real.exp_nat_mul,
        Real.mul_rpow hβ.le hB.le, Real.rpow_neg hB.le]
      congr 1
      have he : Real.exp (-(β * ((B : ℝ) + 1) * x)) = Real.exp (-(β * x)) * Real.exp (B * -(β * x)) := by
        rw [← Real.exp_add]; congr 1; ring
      rw [he]
      field_simp
    · rw [gammaPDF_of_neg (not_le.1 hx), gammaPDF_of_neg (not_le.1 hx), zero_mul, mul_zero]
  unfold gammaMeasure at *
  rw [lintegral_withDensity_eq_lintegral_mul _ hm hanti]
  simp only [Pi.mul_apply, hpt]
  have hm' : Measurable (gammaPDF a (β * ((B : ℝ) + 1))) := (measurable_gammaPDFReal a _).ennreal_ofReal
  rw [lintegral_const_mul _ hm', lintegral_gammaPDF_eq_one ha hβB, mul_one]

/-- **C125, gamma family**: the simulated samples have shape `1` whatever the hypothesis says.  With one observation the
right-tailed Kolmogorov-Smirnov test of a true gamma hypothesis of shape `a` rejects with probability at least
`(B + 1) ^ (-a)`, at every level. -/
theorem C125_gamma_size {lib : Gamma.GammaLib} (hlib : ScipyGamma lib) {a β : ℝ} (ha : 0 < a) (hβ : 0 < β)
    (classes : List GeneratorClass) (hp : classes.Perm generatorClasses) {B : ℕ} (hB : 0 < B) {α : ℝ} (hα : 0 ≤ α) :
    ∃ G M, (Gen.Family.gamma a β).simulator classes = .ok G ∧ G.generate 1 = .ok M ∧
      ENNReal.ofReal (((B : ℝ) + 1) ^ (-a)) ≤
        ((iid 1 (gammaMeasure a β)).prod (Measure.pi fun _ : Fin B => M))
          {ω | TestRejects ((Gamma.GammaStat.ks .right).statistic lib ⟨a, β⟩) α ω.1 ω.2} := by
  have hpr := isProbabilityMeasure_gammaMeasure one_pos hβ
  have hpa := isProbabilityMeasure_gammaMeasure ha hβ
  obtain ⟨G, hG, hgen⟩ := simulates (simulator_law hp (.gamma a β)) (gamma_rvs_one hβ) 1
  refine ⟨G, _, hG, hgen, ?_⟩
  set F : ℝ → ℝ := fun x => cdf (gammaMeasure a β) x with hF
  have hval : ∀ x : Fin 1 → ℝ, ((Gamma.GammaStat.ks .right).statistic lib ⟨a, β⟩).execute (List.ofFn x) =
      .ok (1 - F (x 0)) := by
    intro x
    have : List.ofFn x = [x 0] := by simp
    rw [this]
    refine (gamma_edf hlib (p := ⟨a, β⟩) ha hβ (s := .ks .right) (e := .ks .right) rfl (by simp)).trans ?_
    rw [EdfStat.value_eq]
    simp only [EdfStat.ofVals, sort_single, List.map_cons, List.map_nil]
    exact ks_right (dPlus_single _) (dMinus_single _)
  set R : Set ((Fin 1 → ℝ) × (Fin B → Fin 1 → ℝ)) := {ω | ∀ j, ω.1 0 ≤ ω.2 j 0} with hR
  have hRm : MeasurableSet R := by
    rw [hR, Set.ofPred_forall]
    refine MeasurableSet.iInter fun j => measurableSet_le ?_ ?_ <;> fun_prop
  have hsub : R ⊆ {ω | TestRejects ((Gamma.GammaStat.ks .right).statistic lib ⟨a, β⟩) α ω.1 ω.2} := by
    intro ω hω
    refine rejects_of_extreme one_pos hB rfl hα (hval _) fun j => ⟨_, hval _, ?_⟩
    have := (cdf (gammaMeasure a β)).mono (hω j)
    show 1 - F _ ≤ 1 - F _
    simp only [hF]
    linarith
  refine le_trans (le_of_eq ?_) (measure_mono hsub)
  rw [Measure.prod_apply hRm]
  have hslice : ∀ x : Fin 1 → ℝ, (Measure.pi fun _ : Fin B => iid 1 (gammaMeasure 1 β)) (Prod.mk x ⁻¹' R) =
      (gammaMeasure 1 β (Set.Ici (x 0))) ^ B := by
    intro x
    have h1 : Prod.mk x ⁻¹' R = Set.pi Set.univ fun _ : Fin B => {y : Fin 1 → ℝ | x 0 ≤ y 0} := by
      ext y; simp [hR]
    have h2 : iid 1 (gammaMeasure 1 β) {y : Fin 1 → ℝ | x 0 ≤ y 0} = gammaMeasure 1 β (Set.Ici (x 0)) :=
      (measurePreserving_eval (fun _ : Fin 1 => gammaMeasure 1 β) 0).measure_preimage
        measurableSet_Ici.nullMeasurableSet
    rw [h1, Measure.pi_pi]
    simp only [h2, Finset.prod_const, Finset.card_univ, Fintype.card_fin]
  simp only [hslice]
  have hmeas : Measurable fun x : ℝ => (gammaMeasure 1 β (Set.Ici x)) ^ B := by
    have : Antitone fun x : ℝ => gammaMeasure 1 β (Set.Ici x) := fun x y h => measure_mono (Set.Ici_subset_Ici.2 h)
    exact this.measurable.pow_const B
  rw [← gamma_below_exp ha hβ B]
  exact ((measurePreserving_eval (fun _ : Fin 1 => gammaMeasure a β) 0).lintegral_comp hmeas).symm

/-- **C125, refuted for the gamma family**: with shape `1/2` and `99` simulations, the test at level `1/100` of a true
hypothesis rejects with probability at least `1/10`. -/
theorem C125_refuted_gamma {lib : Gamma.GammaLib} (hlib : ScipyGamma lib) {β : ℝ} (hβ : 0 < β)
    (classes : List GeneratorClass) (hp : classes.Perm generatorClasses) :
    ∃ G M, (Gen.Family.gamma (1 / 2) β).simulator classes = .ok G ∧ G.generate 1 = .ok M ∧
      ENNReal.ofReal (1 / 10) ≤ ((iid 1 (gammaMeasure (1 / 2) β)).prod (Measure.pi fun _ : Fin 99 => M))
        {ω | TestRejects ((Gamma.GammaStat.ks .right).statistic lib ⟨1 / 2, β⟩) (1 / 100) ω.1 ω.2} ∧
      (rankBound .right (1 / 100) 99 : ENNReal) / (99 + 1 : ℕ) = ENNReal.ofReal (1 / 100) := by
  obtain ⟨G, M, hG, hM, h⟩ := C125_gamma_size hlib (a := 1 / 2) (by norm_num) hβ classes hp (B := 99) (by norm_num)
    (α := 1 / 100) (by norm_num)
  refine ⟨G, M, hG, hM, le_trans (ENNReal.ofReal_le_ofReal ?_) h, ?_⟩
  · rw [Real.rpow_neg (by positivity), ← Real.sqrt_eq_rpow,
      show ((99 : ℕ) : ℝ) + 1 = 10 ^ 2 by norm_num, Real.sqrt_sq (by norm_num)]
    norm_num
  · have : ⌊(1 / 100 : ℝ) * (99 : ℕ)⌋₊ = 0 := by rw [Nat.floor_eq_zero]; norm_num
    simp only [rankBound, this]
    rw [ENNReal.ofReal_div_of_pos (by norm_num)]
    norm_num

example : ∃ G M, (Gen.Family.gamma (1 / 2) 3).simulator generatorClasses = .ok G ∧ G.generate 1 = .ok M ∧
    ENNReal.ofReal (1 / 10) ≤ ((iid 1 (gammaMeasure (1 / 2) 3)).prod (Measure.pi fun _ : Fin 99 => M))
      {ω | TestRejects ((Gamma.GammaStat.ks .right).statistic idealGamma ⟨1 / 2, 3⟩) (1 / 100) ω.1 ω.2} ∧
    (rankBound .right (1 / 100) 99 : ENNReal) / (99 + 1 : ℕ) = ENNReal.ofReal (1 / 100) :=
  C125_refuted_gamma scipyGamma_ideal (by norm_num) _ (List.Perm.refl _)

/-- **C125, refuted for samples of one observation**: the Kuiper and Watson criteria of the uniform family then do not
depend on the sample.  Every p-value is zero, and the test rejects every sample at every level. -/
theorem C125_refuted_single {s : UniStat} (hs : s = .kuiper ∨ s = .watson) {a b : ℝ} (hab : a < b) (code : String)
    (classes : List GeneratorClass) (hp : classes.Perm generatorClasses) {B : ℕ} (hB : 0 < B) {α : ℝ} (hα : 0 ≤ α) :
    ∃ G M, (Gen.Family.uniform a b).simulator classes = .ok G ∧ G.generate 1 = .ok M ∧
      ((iid 1 (uniformLaw a b)).prod (Measure.pi fun _ : Fin B => M))
        {ω | TestRejects (s.statistic a b code) α ω.1 ω.2} = 1 := by
  obtain ⟨G, hG, hgen⟩ := C111_uniform classes hp a b hab 1
  have hu := cdf_uniformLaw hab
  have hpr := hu.1
  refine ⟨G, _, hG, hgen, ?_⟩
  obtain ⟨c, hc⟩ : ∃ c, ∀ x : Fin 1 → ℝ, (∀ i, a < x i ∧ x i < b) →
      (s.statistic a b code).execute (List.ofFn x) = .ok c := by
    have hone : ∀ x : Fin 1 → ℝ, List.ofFn x = [x 0] := fun x => by simp
    rcases hs with rfl | rfl
    · refine ⟨1, fun x hx => ?_⟩
      rw [hone]
      refine (uniform_edf (s := .kuiper) rfl (by simp) (by simpa using hx 0)).trans ?_
      rw [EdfStat.value_eq]
      simp only [EdfStat.ofVals, sort_single, List.map_cons, List.map_nil]
      rw [kuiper_eq (dPlus_single _) (dMinus_single _)]
      simp [Except.map, UniStat.rescale]
    · refine ⟨UniStat.watson.rescale 1 (1 / 12), fun x hx => ?_⟩
      rw [hone]
      refine (uniform_edf (s := .watson) rfl (by simp) (by simpa using hx 0)).trans ?_
      rw [EdfStat.value_eq]
      simp only [EdfStat.ofVals, sort_single, List.map_cons, List.map_nil, List.length_singleton]
      simp only [Except.map]
      congr 2
      unfold watsonBeta cvm mean
      simp
      ring
  have hin : ∀ᵐ x ∂(uniformLaw a b), a < x ∧ x < b := by
    filter_upwards [ae_cdf_inner (uniformCdf_continuous hab) hu.2] with x h1
    unfold uniformCdf at h1
    constructor
    · by_contra hc
      rw [if_pos (not_lt.1 hc)] at h1
      exact lt_irrefl _ h1.1
    · by_contra hc
      by_cases ha : x ≤ a
      · rw [if_pos ha] at h1; exact lt_irrefl _ h1.1
      · rw [if_neg ha, if_pos (not_lt.1 hc)] at h1
        exact lt_irrefl _ h1.2
  have hin1 : ∀ᵐ x ∂(iid 1 (uniformLaw a b)), ∀ i, a < x i ∧ x i < b := iid_ae hin
  have hinB : ∀ᵐ y ∂(Measure.pi fun _ : Fin B => iid 1 (uniformLaw a b)), ∀ j i, a < y j i ∧ y j i < b :=
    ae_all_iff.2 fun j => (measurePreserving_eval (fun _ : Fin B => iid 1 (uniformLaw a b)) j).quasiMeasurePreserving.ae
      hin1
  have hall : {ω : (Fin 1 → ℝ) × (Fin B → Fin 1 → ℝ) | TestRejects (s.statistic a b code) α ω.1 ω.2}
      =ᵐ[(iid 1 (uniformLaw a b)).prod (Measure.pi fun _ : Fin B => iid 1 (uniformLaw a b))] Set.univ := by
    rw [Filter.eventuallyEq_univ]
    have h1 := (Measure.quasiMeasurePreserving_fst (μ := iid 1 (uniformLaw a b))
      (ν := Measure.pi fun _ : Fin B => iid 1 (uniformLaw a b))).ae hin1
    have h2 := (Measure.quasiMeasurePreserving_snd (μ := iid 1 (uniformLaw a b))
      (ν := Measure.pi fun _ : Fin B => iid 1 (uniformLaw a b))).ae hinB
    filter_upwards [h1, h2] with ω g1 g2
    exact rejects_of_extreme one_pos hB (by rcases hs with rfl | rfl <;> rfl) hα (hc _ g1)
      fun j => ⟨c, hc _ (g2 j), le_rfl⟩
  rw [measure_congr hall, measure_univ]

example : ∃ G M, (Gen.Family.uniform 0 1).simulator generatorClasses = .ok G ∧ G.generate 1 = .ok M ∧
    ((iid 1 (uniformLaw 0 1)).prod (Measure.pi fun _ : Fin 999 => M))
      {ω | TestRejects (UniStat.kuiper.statistic 0 1 "KUIPER_UNIFORM") (1 / 100) ω.1 ω.2} = 1 :=
  C125_refuted_single (.inl rfl) one_pos _ _ (List.Perm.refl _) (by norm_num) (by norm_num)

end Pysatl.Props
