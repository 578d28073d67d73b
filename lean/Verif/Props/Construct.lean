import Verif.Spec.Construct
import Mathlib.Tactic.NormNum
import Mathlib.Tactic.Linarith

/-!
# Criterion objects report the hypothesis they were built for (C131) and accept exactly the
parameters of distributions (C132)
-/

set_option linter.unusedSimpArgs false

namespace Pysatl.Props

open Pysatl.Codes (Family Registered registry)
open Pysatl.Construct Pysatl.Spec

namespace Construct

theorem bind_ok {α β : Type} {x : Except PyErr α} {f : α → Except PyErr β} {b : β} :
    (x >>= f) = .ok b ↔ ∃ a, x = .ok a ∧ f a = .ok b := by
  cases x <;> simp [Bind.bind, Except.bind]

theorem pure_ok {α : Type} {a b : α} : (pure a : Except PyErr α) = .ok b ↔ a = b := by
  simp [Pure.pure, Except.pure]

theorem lookup_arg {kw : Args} {p : String} {v d : Val} (h : kw.lookup p = some v) :
    arg kw p d = v := by simp [arg, h]

theorem rejectLe_ok {x y : ℝ} (h : y < x) : rejectLe (.num x) (.num y) = .ok () := by
  simp only [rejectLe, if_neg (not_le.2 h)]

theorem rejectLe_error {x y : ℝ} (h : ¬ y < x) :
    rejectLe (.num x) (.num y) = .error .valueError := by
  simp only [rejectLe, if_pos (not_lt.1 h)]

theorem rejectLt_ok {x y : ℝ} (h : y ≤ x) : rejectLt (.num x) (.num y) = .ok () := by
  simp only [rejectLt, if_neg (not_lt.2 h)]

/-- An object with the attributes of two parameters reports them. -/
theorem reports_two {f : Family} {p q : String} (hf : reported f = [p, q]) (hpq : p ≠ q)
    {kw : Args} {o : Obj} {d e : Val} (hp : o.lookup p = some (arg kw p d))
    (hq : o.lookup q = some (arg kw q e)) :
    ∃ ps, hypothesis f o = .ok ps ∧
      ∀ r ∈ [p, q], ∀ v, kw.lookup r = some v → ps.lookup r = some v := by
  refine ⟨[(p, arg kw p d), (q, arg kw q e)], ?_, ?_⟩
  · simp [hypothesis, hf, getattr, hp, hq, Bind.bind, Except.bind, Pure.pure, Except.pure]
  · intro r hr v hv
    simp only [List.mem_cons, List.not_mem_nil, or_false] at hr
    rcases hr with rfl | rfl
    · simp [lookup_arg hv]
    · have : (r == p) = false := by simpa using fun h => hpq h.symm
      simp [List.lookup, this, lookup_arg hv]

theorem reports_one {f : Family} {p : String} (hf : reported f = [p])
    {kw : Args} {o : Obj} {d : Val} (hp : o.lookup p = some (arg kw p d)) :
    ∃ ps, hypothesis f o = .ok ps ∧
      ∀ r ∈ [p], ∀ v, kw.lookup r = some v → ps.lookup r = some v := by
  refine ⟨[(p, arg kw p d)], ?_, ?_⟩
  · simp [hypothesis, hf, getattr, hp, Bind.bind, Except.bind, Pure.pure, Except.pure]
  · intro r hr v hv
    simp only [List.mem_cons, List.not_mem_nil, or_false] at hr
    subst hr
    simp [lookup_arg hv]

theorem ks_lookup {o o' : Obj} {a m : Val} (h : initKS o a m = .ok o') {p : String}
    (h1 : p ≠ "alternative_type") (h2 : p ≠ "mode") : o'.lookup p = o.lookup p := by
  simp only [initKS, pure_ok] at h
  subst h
  have e1 : (p == "mode") = false := by simpa using h2
  have e2 : (p == "alternative_type") = false := by simpa using h1
  simp only [setattr, List.lookup, e1, e2]

theorem beta_lookup {cls : String} {kw : Args} {o : Obj} (h : constructBeta cls kw = .ok o) :
    ∃ d e, o.lookup "alpha" = some (arg kw "alpha" d) ∧ o.lookup "beta" = some (arg kw "beta" e) := by
  simp only [constructBeta] at h
  split_ifs at h <;> simp only [bind_ok, initBeta, pure_ok] at h
  · obtain ⟨_, _, o', ⟨_, _, _, _, rfl⟩, hk⟩ := h
    exact ⟨.num 1, .num 1, by rw [ks_lookup hk (by decide) (by decide)]; rfl,
      by rw [ks_lookup hk (by decide) (by decide)]; rfl⟩
  · obtain ⟨_, _, _, ⟨_, _, _, _, rfl⟩, rfl⟩ := h
    exact ⟨.num 1, .num 1, rfl, rfl⟩
  · obtain ⟨_, _, _, _, _, _, _, _, _, _, rfl⟩ := h
    exact ⟨.num 2, .num 2, rfl, rfl⟩
  · obtain ⟨_, _, _, _, _, _, rfl⟩ := h
    exact ⟨.num 1, .num 1, rfl, rfl⟩

theorem gamma_lookup {cls : String} {kw : Args} {o : Obj} (h : constructGamma cls kw = .ok o) :
    ∃ d e, o.lookup "alpha" = some (arg kw "alpha" d) ∧ o.lookup "beta" = some (arg kw "beta" e) := by
  simp only [constructGamma] at h
  split_ifs at h <;> simp only [bind_ok, initBinnedGamma, initGamma, pure_ok] at h
  · obtain ⟨_, _, o', ⟨_, _, _, _, rfl⟩, hk⟩ := h
    exact ⟨.num 1, .num 1, by rw [ks_lookup hk (by decide) (by decide)]; rfl,
      by rw [ks_lookup hk (by decide) (by decide)]; rfl⟩
  · obtain ⟨_, _, _, _, _, ⟨_, _, _, _, rfl⟩, rfl⟩ := h
    exact ⟨.num 1, .num 1, rfl, rfl⟩
  · obtain ⟨_, _, _, _, _, ⟨_, _, _, _, rfl⟩, rfl⟩ := h
    exact ⟨.num 1, .num 1, rfl, rfl⟩
  · obtain ⟨_, _, _, _, _, _, rfl⟩ := h
    exact ⟨.num 1, .num 1, rfl, rfl⟩

theorem exponential_lookup {cls : String} {kw : Args} {o : Obj}
    (h : constructExponential cls kw = .ok o) :
    ∃ d, o.lookup "lam" = some (arg kw "lam" d) := by
  simp only [constructExponential] at h
  split_ifs at h <;> simp only [bind_ok, initExponential, pure_ok] at h
  · obtain ⟨_, _, o', rfl, hk⟩ := h
    exact ⟨.num 1, by rw [ks_lookup hk (by decide) (by decide)]; rfl⟩
  · obtain ⟨_, _, rfl⟩ := h
    exact ⟨.num 1, rfl⟩

theorem logNormal_lookup {cls : String} {kw : Args} {o : Obj}
    (h : constructLogNormal cls kw = .ok o) :
    ∃ d e, o.lookup "s" = some (arg kw "s" d) ∧ o.lookup "scale" = some (arg kw "scale" e) := by
  simp only [constructLogNormal] at h
  split_ifs at h <;> simp only [bind_ok, initLogNormal, pure_ok] at h
  · obtain ⟨_, _, o', ⟨_, _, _, _, rfl⟩, hk⟩ := h
    exact ⟨.num 1, .num 1, by rw [ks_lookup hk (by decide) (by decide)]; rfl,
      by rw [ks_lookup hk (by decide) (by decide)]; rfl⟩
  · obtain ⟨_, _, _, _, _, _, rfl⟩ := h
    exact ⟨.num 1, .num 1, rfl, rfl⟩

theorem normal_lookup {cls : String} {kw : Args} {o : Obj}
    (hr : cls ≠ "RyanJoinerNormalityGofStatistic") (h : constructNormal cls kw = .ok o) :
    ∃ d e, o.lookup "mean" = some (arg kw "mean" d) ∧ o.lookup "var" = some (arg kw "var" e) := by
  simp only [constructNormal] at h
  split_ifs at h <;> simp only [bind_ok, initNormal, pure_ok] at h
  · obtain ⟨_, _, _, _, _, _, rfl⟩ := h
    exact ⟨.num 0, .num 1, rfl, rfl⟩
  · obtain ⟨_, _, rfl⟩ := h
    exact ⟨.num 0, .num 1, rfl, rfl⟩

theorem student_lookup {cls : String} {kw : Args} {o : Obj} (h : constructStudent cls kw = .ok o) :
    ∃ d, o.lookup "df" = some (arg kw "df" d) := by
  simp only [constructStudent] at h
  split_ifs at h <;> simp only [bind_ok, initStudent, pure_ok] at h
  · obtain ⟨_, _, o', ⟨_, _, _, _, rfl⟩, hk⟩ := h
    exact ⟨.num 1, by rw [ks_lookup hk (by decide) (by decide)]; rfl⟩
  · obtain ⟨_, _, _, _, _, _, rfl⟩ := h
    exact ⟨.num 1, rfl⟩
  · obtain ⟨_, _, _, ⟨_, _, _, _, rfl⟩, rfl⟩ := h
    exact ⟨.num 1, rfl⟩
  · obtain ⟨_, _, _, _, _, _, rfl⟩ := h
    exact ⟨.num 1, rfl⟩

theorem uniform_lookup {cls : String} {kw : Args} {o : Obj} (h : constructUniform cls kw = .ok o) :
    ∃ d e, o.lookup "a" = some (arg kw "a" d) ∧ o.lookup "b" = some (arg kw "b" e) := by
  simp only [constructUniform] at h
  split_ifs at h <;> simp only [bind_ok, initUniform, pure_ok] at h
  · obtain ⟨_, _, o', ⟨_, _, rfl⟩, hk⟩ := h
    exact ⟨.num 0, .num 1, by rw [ks_lookup hk (by decide) (by decide)]; rfl,
      by rw [ks_lookup hk (by decide) (by decide)]; rfl⟩
  · obtain ⟨_, _, _, ⟨_, _, rfl⟩, rfl⟩ := h
    exact ⟨.num 0, .num 1, rfl, rfl⟩
  · obtain ⟨_, _, _, ⟨_, _, rfl⟩, rfl⟩ := h
    exact ⟨.num 0, .num 1, rfl, rfl⟩
  · obtain ⟨_, _, _, ⟨_, _, rfl⟩, hz⟩ := h
    simp only [initZhangUniform] at hz
    split at hz
    · split_ifs at hz
      rw [pure_ok] at hz
      subst hz
      exact ⟨.num 0, .num 1, rfl, rfl⟩
    · exact absurd hz (by simp)
  · obtain ⟨_, _, _, ⟨_, _, rfl⟩, rfl⟩ := h
    exact ⟨.num 0, .num 1, rfl, rfl⟩
  · obtain ⟨_, _, _, _, rfl⟩ := h
    exact ⟨.num 0, .num 1, rfl, rfl⟩

theorem weibull_lookup {cls : String} {kw : Args} {o : Obj} (h : constructWeibull cls kw = .ok o) :
    ∃ d e, o.lookup "a" = some (arg kw "a" d) ∧ o.lookup "k" = some (arg kw "k" e) := by
  simp only [constructWeibull] at h
  split_ifs at h <;> simp only [bind_ok, initWeibull, pure_ok] at h
  · obtain ⟨_, _, _, _, _, _, rfl⟩ := h
    exact ⟨.num 1, .num 5, rfl, rfl⟩
  · obtain ⟨_, _, rfl⟩ := h
    exact ⟨.num 1, .num 1, rfl, rfl⟩

end Construct

open Construct

/-! ### C131 -/

/-- **C131, what holds.** Every criterion but the Ryan-Joiner criterion and those of the Student
family states a hypothesis that names each parameter it was built with. -/
theorem C131_reports_partial (c : Registered) (_ : c ∈ registry)
    (hs : c.family ≠ .student) (hr : c.cls ≠ "RyanJoinerNormalityGofStatistic") :
    ReportsHypothesis c := by
  obtain ⟨f, cls, short, code⟩ := c
  intro kw o ho
  simp only [construct] at ho
  cases f with
  | student => exact absurd rfl hs
  | beta => obtain ⟨d, e, h1, h2⟩ := beta_lookup ho; exact reports_two rfl (by decide) h1 h2
  | exponential => obtain ⟨d, h1⟩ := exponential_lookup ho; exact reports_one rfl h1
  | gamma => obtain ⟨d, e, h1, h2⟩ := gamma_lookup ho; exact reports_two rfl (by decide) h1 h2
  | logNormal => obtain ⟨d, e, h1, h2⟩ := logNormal_lookup ho; exact reports_two rfl (by decide) h1 h2
  | normal => obtain ⟨d, e, h1, h2⟩ := normal_lookup hr ho; exact reports_two rfl (by decide) h1 h2
  | uniform => obtain ⟨d, e, h1, h2⟩ := uniform_lookup ho; exact reports_two rfl (by decide) h1 h2
  | weibull => obtain ⟨d, e, h1, h2⟩ := weibull_lookup ho; exact reports_two rfl (by decide) h1 h2

/-- **C131 for the Student family.** The degrees of freedom are reported. -/
theorem C131_student_partial (c : Registered) (_ : c ∈ registry) (hs : c.family = .student)
    (kw : Args) (o : Obj) (ho : construct c kw = .ok o) :
    ∃ ps, hypothesis c.family o = .ok ps ∧
      ∀ v, kw.lookup "df" = some v → ps = [("df", v)] := by
  obtain ⟨f, cls, short, code⟩ := c
  simp only at hs
  subst hs
  obtain ⟨d, h1⟩ := student_lookup ho
  refine ⟨[("df", arg kw "df" d)], ?_, fun v hv => by rw [lookup_arg hv]⟩
  simp [hypothesis, reported, getattr, h1, Bind.bind, Except.bind, Pure.pure, Except.pure]

/-- The Weibull Kolmogorov-Smirnov criterion, built with a rate and a shape. -/
example : ∃ c ∈ registry, c.cls = "KolmogorovSmirnovWeibullGofStatistic" ∧
    ∃ o, construct c [("a", .num 2), ("k", .num 3)] = .ok o ∧
      hypothesis c.family o = .ok [("a", .num 2), ("k", .num 3)] := by
  refine ⟨⟨.weibull, "KolmogorovSmirnovWeibullGofStatistic", "KS", "KS_WEIBULL_GOODNESS_OF_FIT"⟩,
    by decide +kernel, rfl, _, rfl, rfl⟩

/-- The Ryan-Joiner criterion. -/
def ryanJoiner : Registered :=
  ⟨.normal, "RyanJoinerNormalityGofStatistic", "RJ", "RJ_NORMALITY_GOODNESS_OF_FIT"⟩

theorem ryanJoiner_mem : ryanJoiner ∈ registry := by decide +kernel

/-- **C131 is false of the Ryan-Joiner criterion.** Whatever it is built from, asking it for its
hypothesis is an `AttributeError`, so that neither simulation nor the storage ever yields a
reference distribution for it. -/
theorem C131_refuted_ryanJoiner :
    (∃ o, construct ryanJoiner [] = .ok o) ∧
    ∀ kw o, construct ryanJoiner kw = .ok o →
      hypothesis ryanJoiner.family o = .error .attributeError ∧
      (∀ n : ℤ, 0 < n → ∀ sim, monteCarloResolve ryanJoiner o n sim = .error .attributeError) ∧
      ∀ n get, storageResolve ryanJoiner o n get = .error .attributeError := by
  refine ⟨⟨_, rfl⟩, fun kw o ho => ?_⟩
  have hy : hypothesis ryanJoiner.family o = .error .attributeError := by
    simp only [construct, ryanJoiner, constructNormal, bind_ok, pure_ok] at ho
    simp only [String.reduceEq, if_false, if_true, bind_ok, pure_ok] at ho
    obtain ⟨_, _, rfl⟩ := ho
    rfl
  refine ⟨hy, fun n hn sim => ?_, fun n get => ?_⟩
  · simp only [monteCarloResolve, not_le.2 hn, if_false, hy]
    rfl
  · simp only [storageResolve, hy]
    rfl

/-- **C131 is false of the Student family.** A location and scale other than 0 and 1 are accepted
and not reported: the hypotheses of two different distributions are the same. -/
theorem C131_refuted_student :
    ∃ c ∈ registry, c.family = .student ∧ ¬ ReportsHypothesis c ∧
      ∃ o o', construct c [("loc", .num 0)] = .ok o ∧ construct c [("loc", .num 5)] = .ok o' ∧
        hypothesis c.family o = hypothesis c.family o' := by
  have key : ∀ x : ℝ, construct ⟨.student, "KuiperStudentGofStatistic", "KUIPER",
      "KUIPER_STUDENT_GOODNESS_OF_FIT"⟩ [("loc", .num x)] =
      .ok [("scale", .num 1), ("loc", .num x), ("df", .num 1)] := by
    intro x
    simp [construct, constructStudent, signature, arg, initStudent, setattr, List.lookup,
      rejectLe_ok (one_pos : (0 : ℝ) < 1), Bind.bind, Except.bind, Pure.pure, Except.pure]
  refine ⟨⟨.student, "KuiperStudentGofStatistic", "KUIPER", "KUIPER_STUDENT_GOODNESS_OF_FIT"⟩,
    by decide +kernel, rfl, fun h => ?_, _, _, key 0, key 5, rfl⟩
  obtain ⟨ps, h1, h2⟩ := h _ _ (key 5)
  have h3 := h2 "loc" (by simp [distributionParameters]) (.num 5) rfl
  have h4 : ps = [("df", .num 1)] := by
    have : hypothesis .student [("scale", .num 1), ("loc", .num 5), ("df", .num 1)] =
      .ok [("df", .num 1)] := rfl
    simp only [this] at h1
    exact (Except.ok.inj h1).symm
  rw [h4] at h3
  exact absurd h3 (by simp [List.lookup])

/-! ### C132 -/

namespace Construct

theorem two_of_length {xs : List ℝ} (h : xs.length = 2) : ∃ x y, xs = [x, y] := by
  match xs, h with
  | [x, y], _ => exact ⟨x, y, rfl⟩

theorem three_of_length {xs : List ℝ} (h : xs.length = 3) : ∃ x y z, xs = [x, y, z] := by
  match xs, h with
  | [x, y, z], _ => exact ⟨x, y, z, rfl⟩

theorem beta_accepts {cls : String} (hc : cls ≠ "ModeBetaGofStatistic") {x y : ℝ} :
    ((0 < x ∧ 0 < y) → ∃ o, constructBeta cls [("alpha", .num x), ("beta", .num y)] = .ok o) ∧
    (¬ (0 < x ∧ 0 < y) →
      constructBeta cls [("alpha", .num x), ("beta", .num y)] = .error .valueError) := by
  constructor
  · rintro ⟨hx, hy⟩
    simp only [constructBeta]
    split_ifs <;> simp [signature, arg, initBeta, initKS, setattr, List.lookup, rejectLe_ok hx,
      rejectLe_ok hy, Bind.bind, Except.bind, Pure.pure, Except.pure]
  · intro h
    simp only [constructBeta]
    by_cases hx : 0 < x
    · have hy : ¬ 0 < y := fun hy => h ⟨hx, hy⟩
      split_ifs <;> simp [signature, arg, initBeta, initKS, setattr, List.lookup, rejectLe_ok hx,
        rejectLe_error hy, Bind.bind, Except.bind, Pure.pure, Except.pure]
    · split_ifs <;> simp [signature, arg, initBeta, initKS, setattr, List.lookup,
        rejectLe_error hx, Bind.bind, Except.bind, Pure.pure, Except.pure]

theorem gamma_accepts {cls : String} {x y : ℝ} :
    ((0 < x ∧ 0 < y) → ∃ o, constructGamma cls [("alpha", .num x), ("beta", .num y)] = .ok o) ∧
    (¬ (0 < x ∧ 0 < y) →
      constructGamma cls [("alpha", .num x), ("beta", .num y)] = .error .valueError) := by
  have h8 : (2 : ℝ) ≤ 8 := by norm_num
  constructor
  · rintro ⟨hx, hy⟩
    simp only [constructGamma]
    split_ifs <;> simp [signature, arg, initGamma, initBinnedGamma, initKS, setattr, List.lookup,
      rejectLe_ok hx, rejectLt_ok h8,
      rejectLe_ok hy, Bind.bind, Except.bind, Pure.pure, Except.pure]
  · intro h
    simp only [constructGamma]
    by_cases hx : 0 < x
    · have hy : ¬ 0 < y := fun hy => h ⟨hx, hy⟩
      split_ifs <;> simp [signature, arg, initGamma, initBinnedGamma, initKS, setattr, List.lookup,
        rejectLe_ok hx, rejectLt_ok h8,
        rejectLe_error hy, Bind.bind, Except.bind, Pure.pure, Except.pure]
    · split_ifs <;> simp [signature, arg, initGamma, initBinnedGamma, initKS, setattr, List.lookup,
        rejectLt_ok h8,
        rejectLe_error hx, Bind.bind, Except.bind, Pure.pure, Except.pure]

theorem logNormal_accepts {cls : String} {x y : ℝ} :
    ((0 < x ∧ 0 < y) → ∃ o, constructLogNormal cls [("s", .num x), ("scale", .num y)] = .ok o) ∧
    (¬ (0 < x ∧ 0 < y) →
      constructLogNormal cls [("s", .num x), ("scale", .num y)] = .error .valueError) := by
  constructor
  · rintro ⟨hx, hy⟩
    simp only [constructLogNormal]
    split_ifs <;> simp [signature, arg, initLogNormal, initKS, setattr, List.lookup,
      rejectLe_ok hx, rejectLe_ok hy, Bind.bind, Except.bind, Pure.pure, Except.pure]
  · intro h
    simp only [constructLogNormal]
    by_cases hx : 0 < x
    · have hy : ¬ 0 < y := fun hy => h ⟨hx, hy⟩
      split_ifs <;> simp [signature, arg, initLogNormal, initKS, setattr, List.lookup,
        rejectLe_ok hx, rejectLe_error hy, Bind.bind, Except.bind, Pure.pure, Except.pure]
    · split_ifs <;> simp [signature, arg, initLogNormal, initKS, setattr, List.lookup,
        rejectLe_error hx, Bind.bind, Except.bind, Pure.pure, Except.pure]

theorem student_accepts {cls : String} (hc : cls ≠ "LillieforsStudentGofStatistic") {x y z : ℝ} :
    ((0 < x ∧ 0 < z) → ∃ o,
      constructStudent cls [("df", .num x), ("loc", .num y), ("scale", .num z)] = .ok o) ∧
    (¬ (0 < x ∧ 0 < z) →
      constructStudent cls [("df", .num x), ("loc", .num y), ("scale", .num z)] =
        .error .valueError) := by
  constructor
  · rintro ⟨hx, hy⟩
    simp only [constructStudent]
    split_ifs <;> simp [signature, arg, initStudent, initKS, setattr, List.lookup,
      rejectLe_ok hx, rejectLe_ok hy, Bind.bind, Except.bind, Pure.pure, Except.pure]
  · intro h
    simp only [constructStudent]
    by_cases hx : 0 < x
    · have hy : ¬ 0 < z := fun hy => h ⟨hx, hy⟩
      split_ifs <;> simp [signature, arg, initStudent, initKS, setattr, List.lookup,
        rejectLe_ok hx, rejectLe_error hy, Bind.bind, Except.bind, Pure.pure, Except.pure]
    · split_ifs <;> simp [signature, arg, initStudent, initKS, setattr, List.lookup,
        rejectLe_error hx, Bind.bind, Except.bind, Pure.pure, Except.pure]

theorem zhang_default (o : Obj) :
    initZhangUniform o (.text "A") = .ok (setattr o "test_type" (.text "A")) := by
  have : "A".toUpper = "A" := by decide +kernel
  simp [initZhangUniform, this, Pure.pure, Except.pure]

theorem uniform_accepts {cls : String} {x y : ℝ} :
    (x < y → ∃ o, constructUniform cls [("a", .num x), ("b", .num y)] = .ok o) ∧
    (¬ x < y → constructUniform cls [("a", .num x), ("b", .num y)] = .error .valueError) := by
  constructor
  · intro h
    simp only [constructUniform]
    split_ifs <;> simp [signature, arg, initUniform, initKS, zhang_default, setattr, List.lookup,
      rejectLe_ok h, Bind.bind, Except.bind, Pure.pure, Except.pure]
  · intro h
    simp only [constructUniform]
    split_ifs <;> simp [signature, arg, initUniform, initKS, setattr, List.lookup,
      rejectLe_error h, Bind.bind, Except.bind, Pure.pure, Except.pure]

end Construct

/-- **C132, what holds.** The criteria of the beta, gamma, log-normal, Student and uniform families
are built from exactly the parameters for which the distribution exists, except the mode
criterion, which also needs the mode, and the Lilliefors criterion of the Student family, which
has no location and scale. -/
theorem C132_accepts_partial (c : Registered) (_ : c ∈ registry)
    (hf : c.family ∈ [Family.beta, .gamma, .logNormal, .student, .uniform])
    (h1 : c.cls ≠ "ModeBetaGofStatistic") (h2 : c.cls ≠ "LillieforsStudentGofStatistic") :
    AcceptsAdmissible c := by
  obtain ⟨f, cls, short, code⟩ := c
  simp only [List.mem_cons, List.not_mem_nil, or_false] at hf
  simp only at h1 h2
  intro xs hx
  rcases hf with rfl | rfl | rfl | rfl | rfl
  · obtain ⟨x, y, rfl⟩ := two_of_length hx
    exact beta_accepts h1
  · obtain ⟨x, y, rfl⟩ := two_of_length hx
    exact gamma_accepts
  · obtain ⟨x, y, rfl⟩ := two_of_length hx
    exact logNormal_accepts
  · obtain ⟨x, y, z, rfl⟩ := three_of_length hx
    exact student_accepts h2
  · obtain ⟨x, y, rfl⟩ := two_of_length hx
    exact uniform_accepts

/-- **C132 for the mode criterion.** It is built from exactly the parameters for which the beta
density has an interior mode. -/
theorem C132_mode (x y : ℝ) :
    (1 < x ∧ 1 < y →
      ∃ o, constructBeta "ModeBetaGofStatistic" [("alpha", .num x), ("beta", .num y)] = .ok o) ∧
    (¬ (1 < x ∧ 1 < y) →
      constructBeta "ModeBetaGofStatistic" [("alpha", .num x), ("beta", .num y)] =
        .error .valueError) := by
  constructor
  · rintro ⟨hx, hy⟩
    simp [constructBeta, signature, arg, initBeta, setattr, List.lookup, rejectLe_ok hx,
      rejectLe_ok hy, rejectLe_ok (one_pos.trans hx), rejectLe_ok (one_pos.trans hy),
      Bind.bind, Except.bind, Pure.pure, Except.pure]
  · intro h
    by_cases hx : 1 < x
    · have hy : ¬ 1 < y := fun hy => h ⟨hx, hy⟩
      simp [constructBeta, signature, arg, List.lookup, rejectLe_ok hx,
        rejectLe_error hy, Bind.bind, Except.bind]
    · simp [constructBeta, signature, arg, List.lookup,
        rejectLe_error hx, Bind.bind, Except.bind]

/-- A gamma criterion refuses a negative rate and accepts a positive one. -/
example : ∃ c ∈ registry, c.cls = "WatsonGammaGofStatistic" ∧
    construct c [("alpha", .num 2), ("beta", .num (-1))] = .error .valueError ∧
    ∃ o, construct c [("alpha", .num 2), ("beta", .num 1)] = .ok o := by
  have h : (⟨.gamma, "WatsonGammaGofStatistic", "WAT", "WAT_GAMMA_GOODNESS_OF_FIT"⟩ : Registered) ∈
    registry := by decide +kernel
  have := C132_accepts_partial _ h (by simp) (by simp) (by simp)
  refine ⟨_, h, rfl, (this [2, -1] rfl).2 ?_, (this [2, 1] rfl).1 ?_⟩ <;>
    norm_num [Admissible]

/-- **C132 is false of the normal, exponential and Weibull families.** Every criterion that takes
the parameters accepts all numbers: a negative variance, a rate of zero, a negative shape. -/
theorem C132_refuted (c : Registered) (_ : c ∈ registry)
    (hf : c.family ∈ [Family.normal, .exponential, .weibull])
    (hr : c.cls ≠ "RyanJoinerNormalityGofStatistic") :
    ¬ AcceptsAdmissible c ∧
    ∀ xs : List ℝ, xs.length = (distributionParameters c.family).length →
      ∃ o, construct c ((distributionParameters c.family).zip (xs.map Val.num)) = .ok o := by
  have key : ∀ xs : List ℝ, xs.length = (distributionParameters c.family).length →
      ∃ o, construct c ((distributionParameters c.family).zip (xs.map Val.num)) = .ok o := by
    obtain ⟨f, cls, short, code⟩ := c
    simp only [List.mem_cons, List.not_mem_nil, or_false] at hf
    simp only at hr
    intro xs hx
    rcases hf with rfl | rfl | rfl
    · obtain ⟨x, y, rfl⟩ := two_of_length hx
      simp only [construct, constructNormal]
      split_ifs <;> simp [distributionParameters, signature, arg, initNormal, initKS, setattr,
        List.lookup, Bind.bind, Except.bind, Pure.pure, Except.pure]
    · obtain ⟨x, rfl⟩ := List.length_eq_one_iff.1 hx
      simp only [construct, constructExponential]
      split_ifs <;> simp [distributionParameters, signature, arg, initExponential, initKS, setattr,
        List.lookup, Bind.bind, Except.bind, Pure.pure, Except.pure]
    · obtain ⟨x, y, rfl⟩ := two_of_length hx
      simp only [construct, constructWeibull]
      split_ifs <;> simp [distributionParameters, signature, arg, initWeibull, initKS, setattr,
        List.lookup, Bind.bind, Except.bind, Pure.pure, Except.pure]
  refine ⟨fun h => ?_, key⟩
  obtain ⟨f, cls, short, code⟩ := c
  simp only [List.mem_cons, List.not_mem_nil, or_false] at hf
  rcases hf with rfl | rfl | rfl
  · obtain ⟨o, ho⟩ := key [0, -1] rfl
    have := (h [0, -1] rfl).2 (by norm_num [Admissible])
    rw [ho] at this
    exact absurd this (by simp)
  · obtain ⟨o, ho⟩ := key [0] rfl
    have := (h [0] rfl).2 (by norm_num [Admissible])
    rw [ho] at this
    exact absurd this (by simp)
  · obtain ⟨o, ho⟩ := key [1, -1] rfl
    have := (h [1, -1] rfl).2 (by norm_num [Admissible])
    rw [ho] at this
    exact absurd this (by simp)

example : ∃ c ∈ registry, c.family ∈ [Family.normal, .exponential, .weibull] ∧
    c.cls ≠ "RyanJoinerNormalityGofStatistic" :=
  ⟨⟨.normal, "JBNormalityGofStatistic", "JB", "JB_NORMALITY_GOODNESS_OF_FIT"⟩,
    by decide +kernel, by simp, by simp⟩

end Pysatl.Props
