import Verif.Props.LikelihoodFit
import Verif.Model.LikelihoodReal

/-!
# Properties C129, C130: likelihood outside the support, and whole numbers given as floats
-/

namespace Pysatl.Props

open Pysatl.Likelihood Pysatl.Spec

/-- The mass function of a law on the integers, at a real number. -/
noncomputable def onReals {Θ : Type} (pmf : Θ → ℤ → ℝ) (θ : Θ) (x : ℝ) : ℝ :=
  if (⌊x⌋ : ℝ) = x then pmf θ ⌊x⌋ else 0

/-- No parameter of the family makes the sample possible. -/
def Impossible {Θ α : Type} (valid : Θ → Prop) (pdf : Θ → α → ℝ) (d : List α) : Prop :=
  ∀ θ, valid θ → likelihood (pdf θ) d = 0

theorem Impossible.exists {Θ α : Type} {valid : Θ → Prop} {pdf : Θ → α → ℝ} {d : List α}
    (h : Impossible valid pdf d) {θ : Θ} (hθ : valid θ) {supp : α → Prop}
    (hs : ∀ x, supp x → pdf θ x ≠ 0) : ∃ x ∈ d, ¬ supp x := by
  have h0 := h θ hθ
  unfold likelihood at h0
  rw [List.prod_eq_zero_iff, List.mem_map] at h0
  obtain ⟨x, hx, h0⟩ := h0
  exact ⟨x, hx, fun hsx => hs x hsx h0⟩

theorem any_of_exists {α : Type} {d : List α} {f : α → Bool} (h : ∃ x ∈ d, f x = true) :
    d.any f = true := List.any_eq_true.2 h

/-- **C129.** A sample no log-normal law can produce has likelihood zero. -/
theorem C129_lognormal {d : List ℝ}
    (h : Impossible (fun θ : ℝ × ℝ => 0 < θ.2) lognormalPdf d) : lognormal d = .ok 0 := by
  obtain ⟨x, hx, h0⟩ := h.exists (θ := (0, 1)) one_pos (supp := fun x => 0 < x) (fun x hx => by
    have : 0 < Real.pi := Real.pi_pos
    rw [lognormalPdf, if_pos hx]; positivity)
  have := any_of_exists (f := fun x => decide (x ≤ 0)) ⟨x, hx, by simpa using h0⟩
  simp only [lognormal, this, if_true]; rfl

/-- **C129.** A sample no exponential law can produce has likelihood zero. -/
theorem C129_exponential {d : List ℝ}
    (h : Impossible (fun lam : ℝ => 0 < lam) exponentialPdf d) : exponential d = .ok 0 := by
  obtain ⟨x, hx, h0⟩ := h.exists (θ := 1) one_pos (supp := fun x => 0 ≤ x) (fun x hx => by
    rw [exponentialPdf, if_pos hx]; positivity)
  have := any_of_exists (f := fun x => decide (x < 0)) ⟨x, hx, by simpa using h0⟩
  simp only [exponential, this, if_true]; rfl

/-- **C129.** A sample no Weibull law can produce has likelihood zero. -/
theorem C129_weibull (root : (ℝ → ℝ) → ℝ) {d : List ℝ}
    (h : Impossible (fun θ : ℝ × ℝ => 0 < θ.1 ∧ 0 < θ.2) weibullPdf d) : weibull root d = .ok 0 := by
  obtain ⟨x, hx, h0⟩ := h.exists (θ := (1, 1)) ⟨one_pos, one_pos⟩ (supp := fun x => 0 < x) (fun x hx => by
    rw [weibullPdf, if_pos hx]; positivity)
  have := any_of_exists (f := fun x => decide (x ≤ 0)) ⟨x, hx, by simpa using h0⟩
  simp only [weibull, this, if_true]; rfl

/-- **C129.** A sample no gamma law can produce has likelihood zero. -/
theorem C129_gamma (fit : List ℝ → ℝ × ℝ) {d : List ℝ}
    (h : Impossible (fun θ : ℝ × ℝ => 0 < θ.1 ∧ 0 < θ.2) gammaPdf d) : gamma fit d = .ok 0 := by
  obtain ⟨x, hx, h0⟩ := h.exists (θ := (1, 1)) ⟨one_pos, one_pos⟩ (supp := fun x => 0 < x) (fun x hx => by
    rw [gammaPdf, if_pos hx, Real.Gamma_one]; positivity)
  have := any_of_exists (f := fun x => decide (x ≤ 0)) ⟨x, hx, by simpa using h0⟩
  simp only [gamma, anyNonpos, this, if_true]; rfl

/-- **C129.** A sample no beta law can produce has likelihood zero. -/
theorem C129_beta (fit : List ℝ → ℝ × ℝ) {d : List ℝ}
    (h : Impossible (fun θ : ℝ × ℝ => 0 < θ.1 ∧ 0 < θ.2) betaPdf d) : beta fit d = .ok 0 := by
  obtain ⟨x, hx, h0⟩ := h.exists (θ := (1, 1)) ⟨one_pos, one_pos⟩ (supp := fun x => 0 < x ∧ x < 1)
    (fun x hx => (betaPdf_pos ⟨one_pos, one_pos⟩ hx.1 hx.2).ne')
  have := any_of_exists (f := fun x => decide (x ≤ 0) || decide (1 ≤ x)) ⟨x, hx, by
    by_cases h : 0 < x
    · simpa [not_le.2 h] using fun h' => h0 ⟨h, h'⟩
    · simp [not_lt.1 h]⟩
  simp only [beta, this, if_true]
  split_ifs <;> rfl

/-- **C129.** A sample no chi-squared law can produce has likelihood zero. -/
theorem C129_chiSquared (fit : List ℝ → ℝ × ℝ) {d : List ℝ}
    (h : Impossible (fun k : ℝ => 0 < k) chiSquaredPdf d) : chiSquared fit d = .ok 0 := by
  obtain ⟨x, hx, h0⟩ := h.exists (θ := 2) two_pos (supp := fun x => 0 < x) (fun x hx => by
    rw [chiSquaredPdf, if_pos hx, div_self two_ne_zero, Real.Gamma_one]; positivity)
  have := any_of_exists (f := fun x => decide (x ≤ 0)) ⟨x, hx, by simpa using h0⟩
  simp only [chiSquared, anyNonpos, this, if_true]; rfl

/-- **C129.** A sample no Fisher law can produce has likelihood zero. -/
theorem C129_fisher (fit : List ℝ → ℝ × ℝ × ℝ) {d : List ℝ}
    (h : Impossible (fun θ : ℝ × ℝ => 0 < θ.1 ∧ 0 < θ.2) fisherPdf d) : fisher fit d = .ok 0 := by
  obtain ⟨x, hx, h0⟩ := h.exists (θ := (1, 1)) ⟨one_pos, one_pos⟩ (supp := fun x => 0 < x)
    (fun x hx => (fisherPdf_pos ⟨one_pos, one_pos⟩ hx).ne')
  have := any_of_exists (f := fun x => decide (x ≤ 0)) ⟨x, hx, by simpa using h0⟩
  simp only [fisher, anyNonpos, this, if_true]; rfl

/-- **C129.** A sample with a negative observation has likelihood zero among Rayleigh laws.  (At zero the density
vanishes too, numpy's logarithm is then `-inf`, which the model does not have.) -/
theorem C129_rayleigh {d : List ℝ} (h : ∃ x ∈ d, x < 0) :
    Impossible (fun s : ℝ => 0 < s) rayleighPdf d ∧ rayleigh d = .ok 0 := by
  obtain ⟨x, hx, h0⟩ := h
  refine ⟨fun s _ => ?_, ?_⟩
  · unfold likelihood
    rw [List.prod_eq_zero_iff, List.mem_map]
    exact ⟨x, hx, by rw [rayleighPdf, if_neg (not_lt.2 h0.le)]⟩
  · have := any_of_exists (f := fun x => decide (x < 0)) ⟨x, hx, by simpa using h0⟩
    simp only [rayleigh, this, if_true]; rfl

/-- **C129.** A sample no Pareto law can produce has likelihood zero. -/
theorem C129_pareto {d : List ℝ}
    (h : Impossible (fun θ : ℝ × ℝ => 0 < θ.1 ∧ 0 < θ.2) paretoPdf d) : pareto d = .ok 0 := by
  by_cases hpos : ∀ x ∈ d, 0 < x
  · exfalso
    obtain ⟨m, hm, hle⟩ : ∃ m : ℝ, 0 < m ∧ ∀ x ∈ d, m ≤ x := by
      clear h
      induction d with
      | nil => exact ⟨1, one_pos, by simp⟩
      | cons a d ih =>
        obtain ⟨m, hm, hle⟩ := ih fun x hx => hpos x (List.mem_cons_of_mem _ hx)
        refine ⟨min a m, lt_min (hpos a List.mem_cons_self) hm, fun x hx => ?_⟩
        rcases List.mem_cons.1 hx with rfl | hx
        · exact min_le_left _ _
        · exact (min_le_right _ _).trans (hle x hx)
    obtain ⟨x, hx, h0⟩ := h.exists (θ := (m, 1)) ⟨hm, one_pos⟩ (supp := fun x => m ≤ x) (fun x hx => by
      have : 0 < x := hm.trans_le hx
      rw [paretoPdf, if_pos hx]; positivity)
    exact h0 (hle x hx)
  · push Not at hpos
    have := any_of_exists (d := d) (f := fun x => decide (x ≤ 0)) (by simpa using hpos)
    simp only [pareto, this, if_true]; rfl

/-- **C129.** A sample of reals no Bernoulli law can produce has likelihood zero. -/
theorem C129_bernoulli {d : List ℝ}
    (h : Impossible (fun p : ℝ => 0 ≤ p ∧ p ≤ 1) (onReals bernoulliPmf) d) : bernoulliFloat d = .ok 0 := by
  obtain ⟨x, hx, h0⟩ := h.exists (θ := 1 / 2) (by norm_num) (supp := fun x => x = 0 ∨ x = 1) (fun x hx => by
    rcases hx with rfl | rfl <;> norm_num [onReals, bernoulliPmf])
  have : ¬ (d.all fun x => decide (x = 0 ∨ x = 1)) = true := by
    rw [List.all_eq_true]
    intro hall
    exact h0 (by simpa using hall x hx)
  simp only [bernoulliFloat, this, not_false_eq_true, if_true]; rfl

/-- **C129.** A sample of reals no binomial law with `n` trials can produce has likelihood zero. -/
theorem C129_binomial {n : ℕ} {d : List ℝ}
    (h : Impossible (fun p : ℝ => 0 ≤ p ∧ p ≤ 1) (onReals (binomialPmf n)) d) : binomialFloat d n = .ok 0 := by
  obtain ⟨x, hx, h0⟩ := h.exists (θ := 1 / 2) (by norm_num)
    (supp := fun x => (⌊x⌋ : ℝ) = x ∧ 0 ≤ x ∧ x ≤ n) (fun x hx => by
      obtain ⟨hw, h0, h1⟩ := hx
      have h0' : 0 ≤ ⌊x⌋ := Int.floor_nonneg.2 h0
      have h1' : ⌊x⌋ ≤ n := by rw [← hw] at h1; exact_mod_cast h1
      rw [onReals, if_pos hw, binomialPmf, if_pos ⟨h0', h1'⟩]
      have : 0 < n.choose ⌊x⌋.toNat := Nat.choose_pos (by omega)
      have : (0 : ℝ) < n.choose ⌊x⌋.toNat := by exact_mod_cast this
      have h2 : (0 : ℝ) < 1 - 1 / 2 := by norm_num
      positivity)
  have := any_of_exists (f := fun x => decide (x < 0) || decide ((n : ℝ) < x) || !isWhole x) ⟨x, hx, by
    by_cases h1 : x < 0
    · simp [h1]
    by_cases h2 : (n : ℝ) < x
    · simp [h2]
    have : ¬ (⌊x⌋ : ℝ) = x := fun hw => h0 ⟨hw, not_lt.1 h1, not_lt.1 h2⟩
    simp [isWhole, this]⟩
  simp only [binomialFloat, this, if_true]; rfl

/-- **C129.** A sample of reals no Poisson law can produce has likelihood zero. -/
theorem C129_poisson {d : List ℝ}
    (h : Impossible (fun lam : ℝ => 0 < lam) (onReals poissonPmf) d) : poissonFloat d = .ok 0 := by
  obtain ⟨x, hx, h0⟩ := h.exists (θ := 1) one_pos
    (supp := fun x => (⌊x⌋ : ℝ) = x ∧ 0 ≤ x) (fun x hx => by
      rw [onReals, if_pos hx.1, poissonPmf, if_pos (Int.floor_nonneg.2 hx.2)]
      positivity)
  have : (d.any (fun x => decide (x < 0)) || !(d.all isWhole)) = true := by
    by_cases h1 : x < 0
    · simp only [Bool.or_eq_true]
      exact Or.inl (any_of_exists ⟨x, hx, by simpa using h1⟩)
    · have hw : ¬ (⌊x⌋ : ℝ) = x := fun hw => h0 ⟨hw, not_lt.1 h1⟩
      have : ¬ d.all isWhole = true := fun hall => hw (by simpa [isWhole] using List.all_eq_true.1 hall x hx)
      simp only [Bool.not_eq_true] at this
      simp [this]
  simp only [poissonFloat, this, if_true]; rfl

/-- **C129.** A sample of reals no geometric law can produce has likelihood zero. -/
theorem C129_geometric {d : List ℝ}
    (h : Impossible (fun p : ℝ => 0 < p ∧ p ≤ 1) (onReals geometricPmf) d) : geometricFloat d = .ok 0 := by
  obtain ⟨x, hx, h0⟩ := h.exists (θ := 1 / 2) (by norm_num)
    (supp := fun x => (⌊x⌋ : ℝ) = x ∧ 1 ≤ x) (fun x hx => by
      rw [onReals, if_pos hx.1, geometricPmf, if_pos (Int.le_floor.2 (by exact_mod_cast hx.2))]
      have h2 : (0 : ℝ) < 1 - 1 / 2 := by norm_num
      positivity)
  have : (d.any (fun x => decide (x < 1)) || !(d.all isWhole)) = true := by
    by_cases h1 : x < 1
    · simp only [Bool.or_eq_true]
      exact Or.inl (any_of_exists ⟨x, hx, by simpa using h1⟩)
    · have hw : ¬ (⌊x⌋ : ℝ) = x := fun hw => h0 ⟨hw, not_lt.1 h1⟩
      have : ¬ d.all isWhole = true := fun hall => hw (by simpa [isWhole] using List.all_eq_true.1 hall x hx)
      simp only [Bool.not_eq_true] at this
      simp [this]
  simp only [geometricFloat, this, if_true]; rfl

/-- Samples out of every law of the families, and not by their first observation. -/
example : Impossible (fun θ : ℝ × ℝ => 0 < θ.1 ∧ 0 < θ.2) gammaPdf [1, -2, 3] ∧
    Impossible (fun θ : ℝ × ℝ => 0 < θ.1 ∧ 0 < θ.2) betaPdf [1 / 2, 2] ∧
    Impossible (fun p : ℝ => 0 ≤ p ∧ p ≤ 1) (onReals (binomialPmf 3)) [1, 4] ∧
    Impossible (fun lam : ℝ => 0 < lam) (onReals poissonPmf) [1, 1 / 2] := by
  refine ⟨fun θ _ => ?_, fun θ _ => ?_, fun θ _ => ?_, fun θ _ => ?_⟩ <;> unfold likelihood <;>
    rw [List.prod_eq_zero_iff, List.mem_map]
  · exact ⟨-2, by simp, by norm_num [gammaPdf]⟩
  · exact ⟨2, by simp, by norm_num [betaPdf]⟩
  · exact ⟨4, by simp, by norm_num [onReals, binomialPmf]⟩
  · exact ⟨1 / 2, by simp, by norm_num [onReals]⟩

/-- **C129, refuted for the discrete uniform.** A sample with a number that is not whole cannot come from a
discrete uniform law, but `likelihood_function_discrete_uniform` gives it a positive likelihood, whatever the sample. -/
theorem C129_refuted_discreteUniform {d : List ℝ} (h : ∃ x ∈ d, (⌊x⌋ : ℝ) ≠ x) :
    Impossible (fun θ : ℤ × ℤ => θ.1 ≤ θ.2) (onReals discreteUniformPmf) d ∧
      ∃ r : ℝ, discreteUniformFloat d = .ok (r : Num) ∧ 0 < r := by
  obtain ⟨x, hx, h0⟩ := h
  refine ⟨fun θ _ => ?_, ?_⟩
  · unfold likelihood
    rw [List.prod_eq_zero_iff, List.mem_map]
    exact ⟨x, hx, by rw [onReals, if_neg h0]⟩
  · have hne : d ≠ [] := List.ne_nil_of_mem hx
    obtain ⟨a, ha⟩ : ∃ a, d.min? = some a := by
      cases h : d.min? with
      | none => exact absurd (List.min?_eq_none_iff.1 h) hne
      | some a => exact ⟨a, rfl⟩
    obtain ⟨b, hb⟩ : ∃ b, d.max? = some b := by
      cases h : d.max? with
      | none => exact absurd (List.max?_eq_none_iff.1 h) hne
      | some b => exact ⟨b, rfl⟩
    exact ⟨_, by simp only [discreteUniformFloat, npMin, npMax, ha, hb, Bind.bind, Except.bind]; rfl,
      Real.exp_pos _⟩

/-- One half and two. -/
example : ∃ x ∈ [(1 / 2 : ℝ), 2], (⌊x⌋ : ℝ) ≠ x := ⟨1 / 2, by simp, by norm_num⟩

/-! ### C130 -/

/-- The same numbers as floats. -/
def asFloats (d : List ℤ) : List ℝ := d.map fun x : ℤ => (x : ℝ)

theorem sum_asFloats (d : List ℤ) : (asFloats d).sum = (d.sum : ℝ) := by
  unfold asFloats
  induction d with
  | nil => simp
  | cons a d ih => simp only [List.map_cons, List.sum_cons, ih, Int.cast_add]

theorem all_asFloats (d : List ℤ) (f : ℝ → Bool) : (asFloats d).all f = d.all fun x => f x := by
  unfold asFloats; rw [List.all_map]; rfl

theorem any_asFloats (d : List ℤ) (f : ℝ → Bool) : (asFloats d).any f = d.any fun x => f x := by
  unfold asFloats; rw [List.any_map]; rfl

theorem isWhole_int (x : ℤ) : isWhole (x : ℝ) = true := by simp [isWhole]

theorem asFloats_eq_nil (d : List ℤ) : asFloats d = [] ↔ d = [] := by simp [asFloats]

theorem length_asFloats (d : List ℤ) : (asFloats d).length = d.length := by simp [asFloats]

/-- **C130.** For the Bernoulli family the likelihood of whole numbers given as floats is that of the integers. -/
theorem C130_bernoulli (d : List ℤ) : bernoulliFloat (asFloats d) = bernoulli d := by
  have h : (d.all fun x : ℤ => decide ((x : ℝ) = 0 ∨ (x : ℝ) = 1)) = d.all fun x => decide (x = 0 ∨ x = 1) := by
    congr 1; funext x; congr 1; norm_cast
  simp only [bernoulliFloat, bernoulli, all_asFloats, h, asFloats_eq_nil, length_asFloats, sum_asFloats]

/-- **C130.** The same for the geometric family. -/
theorem C130_geometric (d : List ℤ) : geometricFloat (asFloats d) = geometric d := by
  have h : (d.any fun x : ℤ => decide ((x : ℝ) < 1)) = d.any fun x => decide (x < 1) := by
    congr 1; funext x; congr 1; norm_cast
  have hw : (d.all fun x : ℤ => isWhole (x : ℝ)) = true := List.all_eq_true.2 fun x _ => isWhole_int x
  simp only [geometricFloat, geometric, any_asFloats, all_asFloats, h, hw, asFloats_eq_nil, length_asFloats,
    sum_asFloats, Bool.not_true, Bool.or_false]

theorem min?_asFloats (d : List ℤ) : (asFloats d).min? = d.min?.map fun x : ℤ => (x : ℝ) := by
  cases d with
  | nil => rfl
  | cons a d =>
    simp only [asFloats, List.map_cons, List.min?_cons', Option.map_some, Option.some.injEq]
    induction d generalizing a with
    | nil => rfl
    | cons b d ih => simp only [List.map_cons, List.foldl_cons, ← Int.cast_min, ih]

theorem max?_asFloats (d : List ℤ) : (asFloats d).max? = d.max?.map fun x : ℤ => (x : ℝ) := by
  cases d with
  | nil => rfl
  | cons a d =>
    simp only [asFloats, List.map_cons, List.max?_cons', Option.map_some, Option.some.injEq]
    induction d generalizing a with
    | nil => rfl
    | cons b d ih => simp only [List.map_cons, List.foldl_cons, ← Int.cast_max, ih]

/-- **C130.** The same for the discrete uniform family. -/
theorem C130_discreteUniform (d : List ℤ) : discreteUniformFloat (asFloats d) = discreteUniform d := by
  simp only [discreteUniformFloat, discreteUniform, npMin, npMax, min?_asFloats, max?_asFloats, length_asFloats]
  cases d.min? <;> cases d.max? <;> simp [Bind.bind, Except.bind]

/-- **C130, refuted for the Poisson family.** Every sample of counts, not all zero, has a likelihood as integers and
raises `TypeError` as floats. -/
theorem C130_refuted_poisson {d : List ℤ} (h0 : ∀ x ∈ d, 0 ≤ x) (h1 : ∃ x ∈ d, x ≠ 0) :
    (∃ r : ℝ, poisson d = .ok (r : Num) ∧ 0 < r) ∧ poissonFloat (asFloats d) = .error .typeError := by
  have hne : d ≠ [] := by rintro rfl; simp at h1
  have hsum : 0 < d.sum := by
    obtain ⟨x, hx, hx0⟩ := h1
    have := List.single_le_sum h0 x hx
    have := h0 x hx
    omega
  have hlam : (0 : ℝ) < (d.sum : ℝ) / d.length := by
    have : (0 : ℝ) < d.length := by exact_mod_cast List.length_pos_iff.2 hne
    have : (0 : ℝ) < d.sum := by exact_mod_cast hsum
    positivity
  have hany : (d.any fun x => decide (x < 0)) = false := by simpa using h0
  have hany' : (d.any fun x : ℤ => decide ((x : ℝ) < 0)) = false := by
    rw [← hany]; congr 1; funext x; congr 1; norm_cast
  have hw : (d.all fun x : ℤ => isWhole (x : ℝ)) = true := List.all_eq_true.2 fun x _ => isWhole_int x
  constructor
  · refine ⟨Real.exp (d.map fun x : ℤ => x * Real.log ((d.sum : ℝ) / d.length) - (d.sum : ℝ) / d.length -
      Real.log (x.toNat.factorial)).sum, ?_, Real.exp_pos _⟩
    simp only [poisson, hany, hne, mathLog, not_le.2 hlam, if_false, Bind.bind, Except.bind, Bool.false_eq_true]
    rfl
  · cases d with
    | nil => exact absurd rfl hne
    | cons a d =>
      simp only [poissonFloat, any_asFloats, all_asFloats, hany', hw, asFloats_eq_nil, hne, if_false, sum_asFloats,
        length_asFloats, mathLog, not_le.2 hlam, Bool.not_true, Bool.or_false, Bool.false_eq_true]
      simp [asFloats, intArgument, Bind.bind, Except.bind]

/-- **C130, refuted for the binomial family.** Every sample of counts of successes, not all failures and not all
successes, has a likelihood as integers and raises `TypeError` as floats. -/
theorem C130_refuted_binomial {n : ℕ} {d : List ℤ} (h0 : ∀ x ∈ d, 0 ≤ x ∧ x ≤ n) (h1 : ∃ x ∈ d, x ≠ 0)
    (h2 : ∃ x ∈ d, x ≠ n) :
    (∃ r : ℝ, binomial d n = .ok (r : Num) ∧ 0 < r) ∧ binomialFloat (asFloats d) n = .error .typeError := by
  have hne : d ≠ [] := by rintro rfl; simp at h1
  have hn : n ≠ 0 := by
    rintro rfl
    obtain ⟨x, hx, hx0⟩ := h1
    have := h0 x hx
    simp at this
    omega
  have hsum : 0 < d.sum := by
    obtain ⟨x, hx, hx0⟩ := h1
    have := List.single_le_sum (fun x hx => (h0 x hx).1) x hx
    have := h0 x hx
    omega
  have hsum2 : d.sum < d.length * n := by
    obtain ⟨x, hx, hxn⟩ := h2
    have h3 := List.single_le_sum (l := d.map fun x => (n : ℤ) - x) (by
      intro y hy
      obtain ⟨z, hz, rfl⟩ := List.mem_map.1 hy
      have := (h0 z hz).2
      omega) ((n : ℤ) - x) (List.mem_map.2 ⟨x, hx, rfl⟩)
    have h4 : (d.map fun x => (n : ℤ) - x).sum = d.length * n - d.sum := by
      clear h0 h1 hne hsum hx h3
      induction d with
      | nil => simp
      | cons a d ih => simp only [List.map_cons, List.sum_cons, ih, List.length_cons]; push_cast; ring
    have := (h0 x hx).2
    omega
  have hlen : (0 : ℝ) < d.length := by exact_mod_cast List.length_pos_iff.2 hne
  have hn' : (0 : ℝ) < n := by exact_mod_cast Nat.pos_of_ne_zero hn
  have hp0 : (0 : ℝ) < (d.sum : ℝ) / (d.length * n) := by
    have : (0 : ℝ) < d.sum := by exact_mod_cast hsum
    positivity
  have hp1 : (d.sum : ℝ) / (d.length * n) < 1 := by
    rw [div_lt_one (by positivity)]
    exact_mod_cast hsum2
  have hp1' : 0 < 1 - (d.sum : ℝ) / (d.length * n) := by linarith
  have hp : ¬ ((d.sum : ℝ) / (d.length * n) = 0 ∨ (d.sum : ℝ) / (d.length * n) = 1) := by
    rintro (h | h) <;> linarith
  have hany : (d.any fun x => decide (x < 0 ∨ (n : ℤ) < x)) = false := by
    simpa [not_or] using h0
  have hany' : (d.any fun x : ℤ => decide ((x : ℝ) < 0) || decide ((n : ℝ) < (x : ℝ)) || !isWhole (x : ℝ)) = false := by
    rw [← hany]; congr 1; funext x
    rw [isWhole_int, Bool.not_true, Bool.or_false, Bool.decide_or]
    congr 1 <;> congr 1
    · norm_cast
    · have : ((n : ℝ) < (x : ℝ)) = ((n : ℤ) < x) := by
        rw [← Int.cast_natCast]; exact propext Int.cast_lt
      exact this
  have hor : ¬ (d = [] ∨ n = 0) := by tauto
  constructor
  · refine ⟨Real.exp (d.map fun x : ℤ => Real.log (n.choose x.toNat) + x * Real.log ((d.sum : ℝ) / (d.length * n)) +
      (n - x) * Real.log (1 - (d.sum : ℝ) / (d.length * n))).sum, ?_, Real.exp_pos _⟩
    simp only [binomial, hany, hor, hp, mathLog, not_le.2 hp0, not_le.2 hp1', if_false, Bind.bind, Except.bind,
      Bool.false_eq_true]
    rfl
  · cases d with
    | nil => exact absurd rfl hne
    | cons a d =>
      simp only [binomialFloat, any_asFloats, hany', asFloats_eq_nil, hor, sum_asFloats,
        length_asFloats, hp, if_false, Bool.false_eq_true]
      simp [asFloats, intArgument, Bind.bind, Except.bind]

/-- Counts that meet the hypotheses. -/
example : (∀ x ∈ [(0 : ℤ), 2, 1], 0 ≤ x ∧ x ≤ (3 : ℕ)) ∧ (∃ x ∈ [(0 : ℤ), 2, 1], x ≠ 0) ∧
    ∃ x ∈ [(0 : ℤ), 2, 1], x ≠ (3 : ℕ) := by
  refine ⟨by simp, ⟨2, by simp, by norm_num⟩, ⟨0, by simp, by norm_num⟩⟩

end Pysatl.Props
