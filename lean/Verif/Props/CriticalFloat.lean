import Verif.Lemmas.LerpError
import Verif.Props.DecisionFloat

/-!
# Property C145: critical values in double precision arithmetic
-/

namespace Pysatl.Props

open Pysatl.Decision Pysatl.Spec

/-- A limit distribution of double precision numbers whose differences cannot overflow. -/
structure DoubleSample (L : List ℝ) : Prop where
  nonempty : L ≠ []
  float : ∀ x ∈ L, IsFloat64 x
  size : ∀ x ∈ L, |x| ≤ (2 : ℝ) ^ (899 : ℤ)
  length : L.length ≤ 2 ^ 53

/-- The quantile of the distinct values as double precision arithmetic computes it. -/
noncomputable def roundedQuantile (fl : ℝ → ℝ) (L : List ℝ) (q : ℝ) : ℝ :=
  Rounded.along fl (nth (ecdfQuantiles L)) (fl ((((ecdfQuantiles L).length - 1 : ℕ) : ℝ) * q))

theorem quantiles_length_le (L : List ℝ) : (ecdfQuantiles L).length ≤ L.length := by
  rw [(quantiles_perm L).length_eq]
  exact (List.dedup_sublist L).length_le

section

variable {fl : ℝ → ℝ} (hfl : RoundsToNearest fl) {L : List ℝ} (hL : DoubleSample L)

include hL

theorem nth_quantiles (i : ℕ) : IsFloat64 (nth (ecdfQuantiles L) i) ∧
    |nth (ecdfQuantiles L) i| ≤ (2 : ℝ) ^ (899 : ℤ) ∧ nth (ecdfQuantiles L) i ∈ L := by
  have h := mem_quantiles.1 (nth_mem (quantiles_ne_nil hL.nonempty) i)
  exact ⟨hL.float _ h, hL.size _ h, h⟩

theorem nth_quantiles_sub (i j : ℕ) :
    nth (ecdfQuantiles L) i - nth (ecdfQuantiles L) j ≤ (2 : ℝ) ^ (900 : ℤ) := by
  have h1 := abs_le.1 (nth_quantiles hL i).2.1
  have h2 := abs_le.1 (nth_quantiles hL j).2.1
  have e900 : (2 : ℝ) ^ (900 : ℤ) = (2 : ℝ) ^ (899 : ℤ) + (2 : ℝ) ^ (899 : ℤ) := by
    rw [show (900 : ℤ) = 1 + 899 by norm_num, zpow_add₀ (by norm_num), zpow_one]; ring
  rw [e900]
  generalize (2 : ℝ) ^ (899 : ℤ) = Z at *
  linarith

include hfl

theorem rounded_npQuantile {q : ℝ} (h0 : 0 ≤ q) (h1 : q ≤ 1) :
    Rounded.npQuantile fl (ecdfQuantiles L) q = .ok (roundedQuantile fl L q) :=
  Rounded.npQuantile_eq hfl (quantiles_ne_nil hL.nonempty) (fun x hx => hL.float x (mem_quantiles.1 hx))
    ((quantiles_length_le L).trans hL.length) h0 h1

theorem roundedQuantile_mono {q q' : ℝ} (h0 : 0 ≤ q) (h : q ≤ q') :
    roundedQuantile fl L q ≤ roundedQuantile fl L q' :=
  Rounded.along_mono hfl (nth_mono (quantiles_sorted L)) (fun i => (nth_quantiles hL i).1)
    (nth_quantiles_sub hL) (hfl.nonneg (by positivity))
    (hfl.mono (mul_le_mul_of_nonneg_left h (Nat.cast_nonneg _)))

theorem roundedQuantile_range {q : ℝ} (h0 : 0 ≤ q) : IsFloat64 (roundedQuantile fl L q) ∧
    (∃ x ∈ L, x ≤ roundedQuantile fl L q) ∧ (∃ y ∈ L, roundedQuantile fl L q ≤ y) := by
  have h := Rounded.along_mem hfl (nth_mono (quantiles_sorted L)) (fun i => (nth_quantiles hL i).1)
    (nth_quantiles_sub hL) (hfl.nonneg (show (0 : ℝ) ≤ (((ecdfQuantiles L).length - 1 : ℕ) : ℝ) * q by positivity))
  refine ⟨?_, ⟨_, (nth_quantiles hL _).2.2, h.1⟩, ⟨_, (nth_quantiles hL _).2.2, h.2⟩⟩
  unfold roundedQuantile Rounded.along Rounded.lerp
  simp only
  split_ifs
  · exact (hfl _).1
  · exact (hfl _).1

/-- The quantile computed for a level that is itself off by at most `ε`. -/
theorem roundedQuantile_error {B : ℝ} (hB : ∀ x ∈ L, |x| ≤ B) (hB' : B ≤ (2 : ℝ) ^ (899 : ℤ)) {q q' ε : ℝ}
    (h0 : 0 ≤ q) (h1 : q ≤ 1) (h0' : 0 ≤ q') (h1' : q' ≤ 1) (hq : |q' - q| ≤ ε) :
    |roundedQuantile fl L q' - uniqueQuantile L q| ≤
      (2 * ((L.length : ℝ) - 1) * ε + 2 * (L.length : ℝ) * (2 : ℝ) ^ (-53 : ℤ) + 6 * (2 : ℝ) ^ (-53 : ℤ)) * B +
        (2 : ℝ) ^ (-1075 : ℤ) := by
  have hB0 : 0 ≤ B := by
    obtain ⟨x, hx⟩ := List.exists_mem_of_ne_nil _ hL.nonempty
    exact (abs_nonneg _).trans (hB x hx)
  have hg := nth_mono (quantiles_sorted L)
  have hgB (i : ℕ) : |nth (ecdfQuantiles L) i| ≤ B := hB _ (nth_quantiles hL i).2.2
  have hG (i : ℕ) : |nth (ecdfQuantiles L) (i + 1) - nth (ecdfQuantiles L) i| ≤ 2 * B := by
    have a1 := abs_le.1 (hgB i)
    have a2 := abs_le.1 (hgB (i + 1))
    rw [abs_le]; constructor <;> linarith
  have hm : (((ecdfQuantiles L).length - 1 : ℕ) : ℝ) ≤ (L.length : ℝ) - 1 := by
    have h1 := quantiles_length_le L
    have h2 : 0 < L.length := List.length_pos_iff.2 hL.nonempty
    have : (((L.length - 1 : ℕ)) : ℝ) = (L.length : ℝ) - 1 := by
      rw [Nat.cast_sub h2]; simp
    rw [← this]
    exact_mod_cast Nat.sub_le_sub_right h1 1
  have hN : (L.length : ℝ) - 1 ≤ 2 ^ 53 := by
    have : (L.length : ℝ) ≤ 2 ^ 53 := by exact_mod_cast hL.length
    linarith
  have hm0 : (0 : ℝ) ≤ (((ecdfQuantiles L).length - 1 : ℕ) : ℝ) := Nat.cast_nonneg _
  unfold roundedQuantile uniqueQuantile
  generalize (((ecdfQuantiles L).length - 1 : ℕ) : ℝ) = m at *
  have hε : 0 ≤ ε := (abs_nonneg _).trans hq
  have hu0 : (0 : ℝ) ≤ (2 : ℝ) ^ (-53 : ℤ) := by positivity
  have e1 : |fl (m * q') - m * q'| ≤ (2 : ℝ) ^ (-53 : ℤ) * m + (2 : ℝ) ^ (-1075 : ℤ) := by
    have hmq0 : 0 ≤ m * q' := mul_nonneg hm0 h0'
    have hmq : m * q' ≤ m := mul_le_of_le_one_right hm0 h1'
    have hbig : (2 : ℝ) ^ (53 : ℕ) ≤ (2 : ℝ) ^ (1023 : ℤ) := by
      rw [← zpow_natCast]; exact zpow_le_zpow_right₀ (by norm_num) (by norm_num)
    have := hfl.error_any (x := m * q') (by
      rw [abs_of_nonneg hmq0]
      exact hmq.trans (hm.trans (hN.trans hbig)))
    rw [abs_of_nonneg hmq0] at this
    exact this.trans (add_le_add_left (mul_le_mul_of_nonneg_left hmq hu0) _)
  have e2 : |fl (m * q') - q * m| ≤
      (2 : ℝ) ^ (-53 : ℤ) * ((L.length : ℝ) - 1) + (2 : ℝ) ^ (-53 : ℤ) + ((L.length : ℝ) - 1) * ε := by
    have e3 : |m * q' - q * m| ≤ ((L.length : ℝ) - 1) * ε := by
      rw [show m * q' - q * m = m * (q' - q) by ring, abs_mul, abs_of_nonneg hm0]
      exact mul_le_mul hm hq (abs_nonneg _) (hm0.trans hm)
    have e4 : (2 : ℝ) ^ (-1075 : ℤ) ≤ (2 : ℝ) ^ (-53 : ℤ) := zpow_le_zpow_right₀ (by norm_num) (by norm_num)
    have e5 := mul_le_mul_of_nonneg_left hm hu0
    have := abs_sub_le (fl (m * q')) (m * q') (q * m)
    generalize (2 : ℝ) ^ (-1075 : ℤ) = η at *
    generalize (2 : ℝ) ^ (-53 : ℤ) = u at *
    linarith
  have hx : 0 ≤ fl (m * q') := hfl.nonneg (mul_nonneg hm0 h0')
  have hy : 0 ≤ q * m := mul_nonneg h0 hm0
  have e6 : |Decision.lerp (nth (ecdfQuantiles L)) (fl (m * q')) - Decision.lerp (nth (ecdfQuantiles L)) (q * m)| ≤
      2 * B * |fl (m * q') - q * m| := by
    rcases le_total (fl (m * q')) (q * m) with hle | hle
    · rw [abs_sub_comm, abs_sub_comm (fl _), abs_of_nonneg (sub_nonneg.2 hle)]
      exact Rounded.lerp_lipschitz hG hx hle
    · rw [abs_of_nonneg (sub_nonneg.2 hle)]
      exact Rounded.lerp_lipschitz hG hy hle
  have e7 := Rounded.along_error hfl hg (fun i => (nth_quantiles hL i).1) hgB hB' hx
  refine (abs_sub_le _ (Decision.lerp (nth (ecdfQuantiles L)) (fl (m * q'))) _).trans ?_
  have e8 := mul_le_mul_of_nonneg_left e2 (show 0 ≤ 2 * B by positivity)
  generalize (2 : ℝ) ^ (-1075 : ℤ) = η at *
  generalize (2 : ℝ) ^ (-53 : ℤ) = u at *
  linarith

/-- The computed critical values by kind of alternative. -/
theorem rounded_criticalValue (t : AlternativeType) {α : ℝ} (h0 : 0 ≤ α) (h1 : α ≤ 1) :
    Rounded.criticalValue fl (getConcreteFactory t) L α = .ok (match t with
      | .left => .one (roundedQuantile fl L α)
      | .right => .one (roundedQuantile fl L (fl (1 - α)))
      | .twoTailed => .two (roundedQuantile fl L (fl (α / 2))) (roundedQuantile fl L (fl (1 - fl (α / 2))))) := by
  have g (α : ℝ) (h0 : 0 ≤ α) (h1 : α ≤ 1) : 0 ≤ fl (1 - α) ∧ fl (1 - α) ≤ 1 :=
    ⟨hfl.nonneg (by linarith), hfl.le_float isFloat64_one (by linarith)⟩
  cases t with
  | right =>
    simp only [getConcreteFactory, Rounded.criticalValue, Rounded.rightCriticalValue, reduceCtorEq,
      if_false, if_true, rounded_npQuantile hfl hL (g α h0 h1).1 (g α h0 h1).2]
    rfl
  | left =>
    simp only [getConcreteFactory, Rounded.criticalValue, Rounded.leftCriticalValue, reduceCtorEq,
      if_false, if_true, rounded_npQuantile hfl hL h0 h1]
    rfl
  | twoTailed =>
    have s0 : 0 ≤ fl (α / 2) := hfl.nonneg (by linarith)
    have s1 : fl (α / 2) ≤ 1 := hfl.le_float isFloat64_one (by linarith)
    simp only [getConcreteFactory, Rounded.criticalValue, Rounded.twoSidedCriticalValue, reduceCtorEq,
      if_false, if_true, rounded_npQuantile hfl hL s0 s1,
      rounded_npQuantile hfl hL (g _ s0 s1).1 (g _ s0 s1).2]
    rfl

/-- C145: for a level between 0 and 1 the computed critical values exist and are double precision
numbers between the smallest and the largest simulated value. -/
theorem C145_range (t : AlternativeType) {α : ℝ} (h0 : 0 ≤ α) (h1 : α ≤ 1) :
    ∃ cv, Rounded.criticalValue fl (getConcreteFactory t) L α = .ok cv ∧
      ∀ c ∈ CriticalValue.values cv, IsFloat64 c ∧ (∃ x ∈ L, x ≤ c) ∧ (∃ y ∈ L, c ≤ y) := by
  refine ⟨_, rounded_criticalValue hfl hL t h0 h1, ?_⟩
  have s0 : 0 ≤ fl (α / 2) := hfl.nonneg (by linarith)
  have s1 : fl (α / 2) ≤ 1 := hfl.le_float isFloat64_one (by linarith)
  intro c hc
  cases t with
  | right =>
    simp only [CriticalValue.values, List.mem_singleton] at hc
    rw [hc]; exact roundedQuantile_range hfl hL (hfl.nonneg (by linarith))
  | left =>
    simp only [CriticalValue.values, List.mem_singleton] at hc
    rw [hc]; exact roundedQuantile_range hfl hL h0
  | twoTailed =>
    simp only [CriticalValue.values, List.mem_cons, List.not_mem_nil, or_false] at hc
    rcases hc with hc | hc <;> rw [hc]
    · exact roundedQuantile_range hfl hL s0
    · exact roundedQuantile_range hfl hL (hfl.nonneg (by linarith))

/-- C145: the computed critical values are monotone in the level, and the left one is not above the
right one. -/
theorem C145_monotone {α β : ℝ} (h0 : 0 ≤ α) (hαβ : α ≤ β) (h1 : β ≤ 1) :
    ∃ l l' r r' a b a' b', Rounded.leftCriticalValue fl L α = .ok l ∧ Rounded.leftCriticalValue fl L β = .ok l' ∧
      Rounded.rightCriticalValue fl L α = .ok r ∧ Rounded.rightCriticalValue fl L β = .ok r' ∧
      Rounded.twoSidedCriticalValue fl L α = .ok (a, b) ∧ Rounded.twoSidedCriticalValue fl L β = .ok (a', b') ∧
      l ≤ l' ∧ r' ≤ r ∧ a ≤ a' ∧ a' ≤ b' ∧ b' ≤ b := by
  have hα1 := hαβ.trans h1
  have hβ0 := h0.trans hαβ
  have g (α : ℝ) (h0 : 0 ≤ α) (h1 : α ≤ 1) : 0 ≤ fl (1 - α) ∧ fl (1 - α) ≤ 1 :=
    ⟨hfl.nonneg (by linarith), hfl.le_float isFloat64_one (by linarith)⟩
  have s (γ : ℝ) (g0 : 0 ≤ γ) (g1 : γ ≤ 1) : 0 ≤ fl (γ / 2) ∧ fl (γ / 2) ≤ 1 / 2 :=
    ⟨hfl.nonneg (by linarith), hfl.le_float Rounded.float64_half (by linarith)⟩
  have ht (γ : ℝ) (g0 : 0 ≤ γ) (g1 : γ ≤ 1) : Rounded.twoSidedCriticalValue fl L γ =
      .ok (roundedQuantile fl L (fl (γ / 2)), roundedQuantile fl L (fl (1 - fl (γ / 2)))) := by
    have s0 := s γ g0 g1
    have g' := g _ s0.1 (s0.2.trans (by norm_num))
    simp only [Rounded.twoSidedCriticalValue, rounded_npQuantile hfl hL s0.1 (s0.2.trans (by norm_num)),
      rounded_npQuantile hfl hL g'.1 g'.2]
    rfl
  refine ⟨_, _, _, _, _, _, _, _, rounded_npQuantile hfl hL h0 hα1, rounded_npQuantile hfl hL hβ0 h1,
    rounded_npQuantile hfl hL (g α h0 hα1).1 (g α h0 hα1).2,
    rounded_npQuantile hfl hL (g β hβ0 h1).1 (g β hβ0 h1).2, ht α h0 hα1, ht β hβ0 h1,
    roundedQuantile_mono hfl hL h0 hαβ,
    roundedQuantile_mono hfl hL (g β hβ0 h1).1 (hfl.mono (by linarith)),
    roundedQuantile_mono hfl hL (s α h0 hα1).1 (hfl.mono (by linarith)), ?_, ?_⟩
  · refine roundedQuantile_mono hfl hL (s β hβ0 h1).1 ((s β hβ0 h1).2.trans ?_)
    exact hfl.float_le Rounded.float64_half (by linarith [(s β hβ0 h1).2])
  · refine roundedQuantile_mono hfl hL (g _ (s β hβ0 h1).1 ((s β hβ0 h1).2.trans (by norm_num))).1 (hfl.mono ?_)
    linarith [hfl.mono (show α / 2 ≤ β / 2 by linarith)]

/-- C145: the computed critical values differ from those of exact arithmetic by a number of units in
the last place of the largest simulated value that grows with the number of simulations only. -/
theorem C145_error (t : AlternativeType) {B : ℝ} (hB : ∀ x ∈ L, |x| ≤ B) (hB' : B ≤ (2 : ℝ) ^ (899 : ℤ))
    {α : ℝ} (h0 : 0 ≤ α) (h1 : α ≤ 1) :
    ∃ cv cv', Rounded.criticalValue fl (getConcreteFactory t) L α = .ok cv ∧
      (getConcreteFactory t).criticalValue L α = .ok cv' ∧
      List.Forall₂ (fun c c' => |c - c'| ≤ ((L.length : ℝ) + 1) * (2 : ℝ) ^ (-50 : ℤ) * B + (2 : ℝ) ^ (-1075 : ℤ))
        (CriticalValue.values cv) (CriticalValue.values cv') := by
  have hB0 : 0 ≤ B := by
    obtain ⟨x, hx⟩ := List.exists_mem_of_ne_nil _ hL.nonempty
    exact (abs_nonneg _).trans (hB x hx)
  have hn : (1 : ℝ) ≤ L.length := by exact_mod_cast List.length_pos_iff.2 hL.nonempty
  have unit (x : ℝ) (x0 : 0 ≤ x) (x1 : x ≤ 1) : |fl x - x| ≤ (2 : ℝ) ^ (-54 : ℤ) ∧ 0 ≤ fl x ∧ fl x ≤ 1 :=
    ⟨hfl.error_unit x0 x1, hfl.nonneg x0, hfl.le_float isFloat64_one x1⟩
  have key {q q' : ℝ} (q0 : 0 ≤ q) (q1 : q ≤ 1) (q0' : 0 ≤ q') (q1' : q' ≤ 1)
      (hq : |q' - q| ≤ (2 : ℝ) ^ (-53 : ℤ)) : |roundedQuantile fl L q' - uniqueQuantile L q| ≤
        ((L.length : ℝ) + 1) * (2 : ℝ) ^ (-50 : ℤ) * B + (2 : ℝ) ^ (-1075 : ℤ) := by
    refine (roundedQuantile_error hfl hL hB hB' q0 q1 q0' q1' hq).trans (add_le_add_left ?_ _)
    refine mul_le_mul_of_nonneg_right ?_ hB0
    rw [show (2 : ℝ) ^ (-50 : ℤ) = 8 * (2 : ℝ) ^ (-53 : ℤ) by norm_num]
    have hu0 : (0 : ℝ) ≤ (2 : ℝ) ^ (-53 : ℤ) := by positivity
    generalize (2 : ℝ) ^ (-53 : ℤ) = u at *
    have : 0 ≤ (L.length : ℝ) * u := by positivity
    linarith
  have h5453 : (2 : ℝ) ^ (-54 : ℤ) ≤ (2 : ℝ) ^ (-53 : ℤ) := zpow_le_zpow_right₀ (by norm_num) (by norm_num)
  have h54 : (2 : ℝ) ^ (-54 : ℤ) + (2 : ℝ) ^ (-54 : ℤ) = (2 : ℝ) ^ (-53 : ℤ) := by norm_num
  have ex : (getConcreteFactory t).criticalValue L α = .ok (match t with
      | .left => .one (uniqueQuantile L α)
      | .right => .one (uniqueQuantile L (1 - α))
      | .twoTailed => .two (uniqueQuantile L (α / 2)) (uniqueQuantile L (1 - α / 2))) := by
    cases t with
    | right =>
      simp only [getConcreteFactory, Factory.criticalValue, rightCriticalValue, reduceCtorEq,
        if_false, if_true, npQuantile_unique hL.nonempty (sub_nonneg.2 h1) (sub_le_self _ h0)]
      rfl
    | left =>
      simp only [getConcreteFactory, Factory.criticalValue, leftCriticalValue, reduceCtorEq,
        if_false, if_true, npQuantile_unique hL.nonempty h0 h1]
      rfl
    | twoTailed =>
      simp only [getConcreteFactory, Factory.criticalValue, twoSidedCriticalValue, reduceCtorEq,
        if_false, if_true, npQuantile_unique hL.nonempty (show 0 ≤ α / 2 by linarith) (by linarith),
        npQuantile_unique hL.nonempty (show 0 ≤ 1 - α / 2 by linarith) (by linarith)]
      rfl
  refine ⟨_, _, rounded_criticalValue hfl hL t h0 h1, ex, ?_⟩
  cases t with
  | right =>
    obtain ⟨u1, u2, u3⟩ := unit (1 - α) (by linarith) (by linarith)
    exact .cons (key (by linarith) (by linarith) u2 u3 (u1.trans h5453)) .nil
  | left => exact .cons (key h0 h1 h0 h1 (by rw [sub_self, abs_zero]; positivity)) .nil
  | twoTailed =>
    obtain ⟨u1, u2, u3⟩ := unit (α / 2) (by linarith) (by linarith)
    obtain ⟨v1, v2, v3⟩ := unit (1 - fl (α / 2)) (by linarith) (by linarith)
    refine .cons (key (by linarith) (by linarith) u2 u3 (u1.trans h5453))
      (.cons (key (by linarith) (by linarith) v2 v3 ?_) .nil)
    rw [← h54]
    refine (abs_sub_le _ (1 - fl (α / 2)) _).trans (add_le_add v1 ?_)
    rw [show 1 - fl (α / 2) - (1 - α / 2) = -(fl (α / 2) - α / 2) by ring, abs_neg]
    exact u1

end

/-- What the rounded decision returns when it returns. -/
theorem rounded_cvDecide_ok {σ : Type} {fl : ℝ → ℝ} {r : Resolver σ ℝ} {st : Statistic ℝ} {s α : ℝ} {n : ℤ}
    {w w' : σ} {res : TestResult ℝ} (h : (Rounded.criticalValueDecide fl r st s α n).exec w = (.ok res, w')) :
    ∃ L cv area, (r st n).exec w = (.ok (some L), w') ∧
      Rounded.criticalValue fl (getConcreteFactory st.alternative) L α = .ok cv ∧
      (getConcreteFactory st.alternative).criticalArea cv = .ok area ∧
      res = { statistic := s, significanceLevel := α, pValue := none, criticalValue := some cv,
              rejected := !(area.contains s) } := by
  unfold Rounded.criticalValueDecide at h
  rw [exec_bind] at h
  rcases hr : (r st n).exec w with ⟨x, w1⟩
  rw [hr] at h
  cases x with
  | error e => simp at h
  | ok o =>
    cases o with
    | none => simp at h
    | some L =>
      simp only [exec_bind, exec_lift] at h
      cases hcv : Rounded.criticalValue fl (getConcreteFactory st.alternative) L α with
      | error e => simp [hcv] at h
      | ok cv =>
        simp only [hcv] at h
        cases ha : (getConcreteFactory st.alternative).criticalArea cv with
        | error e => simp [ha] at h
        | ok area =>
          simp only [ha, exec_pure, Prod.mk.injEq, Except.ok.injEq] at h
          obtain ⟨rfl, rfl⟩ := h
          exact ⟨L, cv, area, rfl, hcv, ha, rfl⟩

/-- C145: with the same simulated values, what the computation rejects at one level it rejects at every
larger level. -/
theorem C145_decision {σ : Type} {fl : ℝ → ℝ} (hfl : RoundsToNearest fl) (r : Resolver σ ℝ) (st : Statistic ℝ)
    {s α β : ℝ} (n : ℤ) {w w' w'' : σ} {res res' : TestResult ℝ} (h0 : 0 ≤ α) (hαβ : α ≤ β) (h1 : β ≤ 1)
    (hd : ∀ L w', (r st n).exec w = (.ok (some L), w') → DoubleSample L)
    (h : (Rounded.criticalValueDecide fl r st s α n).exec w = (.ok res, w'))
    (h' : (Rounded.criticalValueDecide fl r st s β n).exec w = (.ok res', w''))
    (hrej : res.rejected = true) : res'.rejected = true := by
  obtain ⟨L, cv, area, hL, hcv, ha, rfl⟩ := rounded_cvDecide_ok h
  obtain ⟨L', cv', area', hL', hcv', ha', rfl⟩ := rounded_cvDecide_ok h'
  rw [hL] at hL'
  simp only [Prod.mk.injEq, Except.ok.injEq, Option.some.injEq] at hL'
  obtain ⟨rfl, rfl⟩ := hL'
  have hS := hd _ _ hL
  have hβ0 := h0.trans hαβ
  rw [rounded_criticalValue hfl hS st.alternative h0 (hαβ.trans h1)] at hcv
  rw [rounded_criticalValue hfl hS st.alternative hβ0 h1] at hcv'
  cases hcv
  cases hcv'
  cases ht : st.alternative with
  | right =>
    simp only [ht, getConcreteFactory, reduceCtorEq, if_false, if_true, Factory.criticalArea,
      Except.ok.injEq] at ha ha'
    subst ha ha'
    simp only [CriticalArea.contains, Bool.not_eq_true', decide_eq_false_iff_not, not_le] at hrej ⊢
    exact (roundedQuantile_mono hfl hS (hfl.nonneg (by linarith)) (hfl.mono (by linarith))).trans_lt hrej
  | left =>
    simp only [ht, getConcreteFactory, reduceCtorEq, if_false, if_true, Factory.criticalArea,
      Except.ok.injEq] at ha ha'
    subst ha ha'
    simp only [CriticalArea.contains, Bool.not_eq_true', decide_eq_false_iff_not, not_le] at hrej ⊢
    exact hrej.trans_le (roundedQuantile_mono hfl hS h0 hαβ)
  | twoTailed =>
    simp only [ht, getConcreteFactory, reduceCtorEq, if_false, if_true, Factory.criticalArea,
      Except.ok.injEq] at ha ha'
    subst ha ha'
    simp only [CriticalArea.contains, Bool.not_eq_true', Bool.and_eq_false_iff, decide_eq_false_iff_not,
      not_le] at hrej ⊢
    have hm : fl (α / 2) ≤ fl (β / 2) := hfl.mono (by linarith)
    rcases hrej with h2 | h2
    · exact Or.inl (h2.trans_le (roundedQuantile_mono hfl hS (hfl.nonneg (by linarith)) hm))
    · have hb : fl (β / 2) ≤ 1 := hfl.le_float isFloat64_one (by linarith)
      exact Or.inr ((roundedQuantile_mono hfl hS (hfl.nonneg (by linarith)) (hfl.mono (by linarith))).trans_lt h2)

/-- The hypotheses of C145 are met: there are roundings, and limit distributions. -/
example : ∃ fl, RoundsToNearest fl ∧ DoubleSample [3, 1, 2, 2, 5] := by
  obtain ⟨fl, hfl⟩ := exists_rounding
  have hbig : (8 : ℝ) ≤ (2 : ℝ) ^ (899 : ℤ) := by
    rw [show (8 : ℝ) = (2 : ℝ) ^ (3 : ℤ) by norm_num]
    exact zpow_le_zpow_right₀ (by norm_num) (by norm_num)
  have hf (k : ℕ) (hk : k < 8) : IsFloat64 (k : ℝ) ∧ |(k : ℝ)| ≤ (2 : ℝ) ^ (899 : ℤ) :=
    ⟨isFloat64_nat k (by omega), by
      rw [abs_of_nonneg (Nat.cast_nonneg k)]
      exact le_trans (by exact_mod_cast hk.le) hbig⟩
  refine ⟨fl, hfl, by simp, ?_, ?_, by norm_num⟩
  · intro x hx
    simp only [List.mem_cons, List.not_mem_nil, or_false] at hx
    rcases hx with rfl | rfl | rfl | rfl | rfl
    · exact (hf 3 (by norm_num)).1
    · simpa using (hf 1 (by norm_num)).1
    · exact (hf 2 (by norm_num)).1
    · exact (hf 2 (by norm_num)).1
    · exact (hf 5 (by norm_num)).1
  · intro x hx
    simp only [List.mem_cons, List.not_mem_nil, or_false] at hx
    rcases hx with rfl | rfl | rfl | rfl | rfl
    · exact (hf 3 (by norm_num)).2
    · simpa using (hf 1 (by norm_num)).2
    · exact (hf 2 (by norm_num)).2
    · exact (hf 2 (by norm_num)).2
    · exact (hf 5 (by norm_num)).2

end Pysatl.Props
