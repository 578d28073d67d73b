import Verif.Model.DecisionFloat
import Verif.Lemmas.Float64
import Verif.Props.Decision

/-!
# Property C128: decisions by p-value in double precision arithmetic
-/

namespace Pysatl.Props

open Pysatl.Decision Pysatl.Spec

/-- The p-value in exact arithmetic: the fraction of simulated values at or below the
statistic, above it, or twice the smaller of the two. -/
noncomputable def exactTail (t : AlternativeType) (L : List ℝ) (s : ℝ) : ℝ :=
  match t with
  | .left => fracLe L s
  | .right => fracGt L s
  | .twoTailed => 2 * min (fracLe L s) (fracGt L s)

theorem fracLe_add_fracGt (L : List ℝ) (hL : L ≠ []) (s : ℝ) : fracLe L s + fracGt L s = 1 := by
  have h : (0 : ℝ) < L.length := by exact_mod_cast List.length_pos_iff.2 hL
  unfold fracLe fracGt
  rw [← add_div, div_eq_one_iff_eq h.ne']
  have : (L.filter (fun x => x ≤ s)).length + (L.filter (fun x => s < x)).length = L.length := by
    rw [← List.countP_eq_length_filter, ← List.countP_eq_length_filter,
      List.length_eq_countP_add_countP (fun x => decide (x ≤ s))]
    congr 1
    apply List.countP_congr
    intro x _
    simp
  exact_mod_cast this

theorem exactTail_ratio (t : AlternativeType) (L : List ℝ) (s : ℝ) :
    ∃ k : ℕ, exactTail t L s = (k : ℝ) / L.length := by
  cases t with
  | left => exact ⟨_, rfl⟩
  | right => exact ⟨_, rfl⟩
  | twoTailed =>
    rcases min_cases (fracLe L s) (fracGt L s) with ⟨h, _⟩ | ⟨h, _⟩
    · refine ⟨2 * (L.filter (fun x => x ≤ s)).length, ?_⟩
      simp only [exactTail, h]
      simp only [fracLe]
      push_cast
      ring
    · refine ⟨2 * (L.filter (fun x => s < x)).length, ?_⟩
      simp only [exactTail, h]
      simp only [fracGt]
      push_cast
      ring

section

variable {fl : ℝ → ℝ} (hfl : RoundsToNearest fl)

include hfl

/-- The computed p-value, its range and its error. -/
theorem rounded_pValue (t : AlternativeType) (L : List ℝ) (hL : L ≠ []) (s : ℝ) :
    ∃ p, Rounded.pValue fl (getConcreteFactory t) L s = .ok p ∧ 0 ≤ p ∧ p ≤ 1 ∧
      |p - exactTail t L s| ≤ 5 * (2 : ℝ) ^ (-54 : ℤ) ∧ (t = .left → p = fl (exactTail t L s)) := by
  have hlen : L.length ≠ 0 := by simpa using hL
  set u : ℝ := (2 : ℝ) ^ (-54 : ℤ) with hu
  have hu0 : 0 < u := by positivity
  have hc : ((L.countP (fun x => decide (x ≤ s)) : ℕ) / (L.length : ℝ)) = fracLe L s := by
    unfold fracLe
    rw [List.countP_eq_length_filter]
  have hsum := fracLe_add_fracGt L hL s
  have h0 : 0 ≤ fracLe L s := by unfold fracLe; positivity
  have h1 : 0 ≤ fracGt L s := by unfold fracGt; positivity
  set c := fl (fracLe L s) with hcdef
  have hc0 : 0 ≤ c := hfl.nonneg h0
  have hc1 : c ≤ 1 := hfl.le_float isFloat64_one (by linarith)
  have e1 := hfl.error_unit h0 (by linarith)
  rw [← hcdef, ← hu] at e1
  set d := fl (1 - c) with hd
  have hd0 : 0 ≤ d := hfl.nonneg (by linarith)
  have hd1 : d ≤ 1 := hfl.le_float isFloat64_one (by linarith)
  have e2 := hfl.error_unit (x := 1 - c) (by linarith) (by linarith)
  rw [← hd, ← hu] at e2
  rw [abs_le] at e1 e2
  have hev : Rounded.ecdfEvaluate fl L s = .ok c := by
    unfold Rounded.ecdfEvaluate
    rw [if_neg hlen, hc]
  cases t with
  | left =>
    refine ⟨c, ?_, hc0, hc1, ?_, fun _ => rfl⟩
    · simp [Rounded.pValue, getConcreteFactory, hev, bind, Except.bind, pure, Except.pure]
    · simp only [exactTail, abs_le]
      constructor <;> linarith
  | right =>
    refine ⟨d, ?_, hd0, hd1, ?_, fun h => by simp at h⟩
    · simp [Rounded.pValue, getConcreteFactory, hev, bind, Except.bind, pure, Except.pure, hd]
    · simp only [exactTail, abs_le]
      constructor <;> linarith
  | twoTailed =>
    have hm : 2 * min c d ≤ 1 := by
      rcases le_total c (1 / 2) with h | h
      · linarith [min_le_left c d]
      · have : d ≤ 1 / 2 := hfl.le_float ⟨1, -1, by norm_num, by norm_num, by norm_num, by norm_num⟩
          (by linarith)
        linarith [min_le_right c d]
    have hm0 : 0 ≤ 2 * min c d := by positivity
    have e3 := hfl.error_unit hm0 hm
    rw [← hu, abs_le] at e3
    refine ⟨fl (2 * min c d), ?_, hfl.nonneg hm0, hfl.le_float isFloat64_one hm, ?_, fun h => by simp at h⟩
    · simp [Rounded.pValue, getConcreteFactory, hev, bind, Except.bind, pure, Except.pure, hd]
    · have b1 : min c d ≤ min (fracLe L s) (fracGt L s) + 2 * u := by
        rcases min_cases (fracLe L s) (fracGt L s) with ⟨h, _⟩ | ⟨h, _⟩ <;> rw [h]
        · linarith [min_le_left c d]
        · linarith [min_le_right c d]
      have b2 : min (fracLe L s) (fracGt L s) - 2 * u ≤ min c d := by
        rcases min_cases c d with ⟨h, _⟩ | ⟨h, _⟩ <;> rw [h]
        · linarith [min_le_left (fracLe L s) (fracGt L s)]
        · linarith [min_le_right (fracLe L s) (fracGt L s)]
      simp only [exactTail, abs_le]
      constructor <;> linarith

/-- **C128.** In double precision the p-value returned is a number in `[0,1]` and differs from
the exact fraction of simulated values by at most `5 * 2^-54`, and the test rejects exactly
when it is at most the level. -/
theorem C128_p_value {σ : Type} (resolver : Resolver σ ℝ) (st : Statistic ℝ) (s α : ℝ) (size : ℤ)
    (w w' : σ) (L : List ℝ) (hL : L ≠ []) (hr : (resolver st size).exec w = (.ok (some L), w')) :
    ∃ p, (Rounded.pValueDecide fl resolver st s α size).exec w =
        (.ok { statistic := s, significanceLevel := α, pValue := some p, criticalValue := none,
               rejected := decide (p ≤ α) }, w') ∧
      0 ≤ p ∧ p ≤ 1 ∧ |p - exactTail st.alternative L s| ≤ 5 * (2 : ℝ) ^ (-54 : ℤ) := by
  obtain ⟨p, hp, h0, h1, he, _⟩ := rounded_pValue hfl st.alternative L hL s
  refine ⟨p, ?_, h0, h1, he⟩
  unfold Rounded.pValueDecide
  rw [exec_bind, hr]
  simp only [exec_bind, exec_lift, hp, exec_pure]

/-- **C128.** Let the level be the double precision number nearest to `a/b`, and let there be
`B` simulated values, `B * b` at most `2^51`.  In double precision the test never rejects when
the exact p-value is above `a/b`, and always rejects when it is below.  For left-tailed
criteria it also rejects when they are equal, as in exact arithmetic.  (For right-tailed
criteria it need not: `C128_refuted_right`.) -/
theorem C128_decision_partial {σ : Type} (resolver : Resolver σ ℝ) (st : Statistic ℝ) (s : ℝ) (size : ℤ)
    (w w' : σ) (L : List ℝ) (hL : L ≠ []) (hr : (resolver st size).exec w = (.ok (some L), w'))
    (a b : ℕ) (hb : 0 < b) (hab : a ≤ b) (hB : L.length * b ≤ 2 ^ 51) (res : TestResult ℝ)
    (hres : (Rounded.pValueDecide fl resolver st s (fl (a / b)) size).exec w = (.ok res, w')) :
    (res.rejected = true → exactTail st.alternative L s ≤ (a : ℝ) / b) ∧
    (exactTail st.alternative L s < (a : ℝ) / b → res.rejected = true) ∧
    (st.alternative = .left → exactTail st.alternative L s ≤ (a : ℝ) / b → res.rejected = true) := by
  obtain ⟨p, hp, h0, h1, he, hleft⟩ := rounded_pValue hfl st.alternative L hL s
  have hrej : res.rejected = decide (p ≤ fl (a / b)) := by
    unfold Rounded.pValueDecide at hres
    rw [exec_bind, hr] at hres
    simp only [exec_bind, exec_lift, hp, exec_pure, Prod.mk.injEq, Except.ok.injEq] at hres
    rw [← hres.1]
  have hb' : (0 : ℝ) < b := by exact_mod_cast hb
  have hn' : (0 : ℝ) < L.length := by exact_mod_cast List.length_pos_iff.2 hL
  have ha1 : (a : ℝ) / b ≤ 1 := by rw [div_le_one hb']; exact_mod_cast hab
  have e3 := hfl.error_unit (x := (a : ℝ) / b) (by positivity) ha1
  obtain ⟨k, hk⟩ := exactTail_ratio st.alternative L s
  have hsep : ∀ x y : ℤ, x < y → (x : ℝ) / (L.length * b) + (2 : ℝ) ^ (-51 : ℤ) ≤ y / (L.length * b) := by
    intro x y hxy
    have h2 : (x : ℝ) + 1 ≤ y := by exact_mod_cast hxy
    have h3 : ((L.length * b : ℕ) : ℝ) ≤ ((2 ^ 51 : ℕ) : ℝ) := by exact_mod_cast hB
    rw [Nat.cast_mul, Nat.cast_pow, Nat.cast_ofNat] at h3
    have h4 : (2 : ℝ) ^ (-51 : ℤ) = 1 / 2 ^ 51 := by norm_num
    have h5 : (1 : ℝ) / 2 ^ 51 ≤ 1 / (L.length * b) := one_div_le_one_div_of_le (by positivity) h3
    rw [h4]
    calc (x : ℝ) / (L.length * b) + 1 / 2 ^ 51 ≤ x / (L.length * b) + 1 / (L.length * b) := by linarith
      _ = (x + 1) / (L.length * b) := by ring
      _ ≤ y / (L.length * b) := by gcongr
  have e51 : (2 : ℝ) ^ (-51 : ℤ) = 8 * (2 : ℝ) ^ (-54 : ℤ) := by norm_num
  have hu0 : (0 : ℝ) < (2 : ℝ) ^ (-54 : ℤ) := by positivity
  rw [e51] at hsep
  rw [abs_le] at he e3
  have q1 : exactTail st.alternative L s = ((k * b : ℤ) : ℝ) / (L.length * b) := by
    rw [hk]; push_cast; field_simp
  have q2 : (a : ℝ) / b = ((a * L.length : ℤ) : ℝ) / (L.length * b) := by
    push_cast; field_simp
  have hcmp : exactTail st.alternative L s < (a : ℝ) / b →
      exactTail st.alternative L s + 8 * (2 : ℝ) ^ (-54 : ℤ) ≤ (a : ℝ) / b := by
    intro hlt
    rw [q1, q2] at hlt ⊢
    apply hsep
    rw [div_lt_div_iff_of_pos_right (by positivity)] at hlt
    exact_mod_cast hlt
  have hcmp' : (a : ℝ) / b < exactTail st.alternative L s →
      (a : ℝ) / b + 8 * (2 : ℝ) ^ (-54 : ℤ) ≤ exactTail st.alternative L s := by
    intro hlt
    rw [q1, q2] at hlt ⊢
    apply hsep
    rw [div_lt_div_iff_of_pos_right (by positivity)] at hlt
    exact_mod_cast hlt
  generalize (2 : ℝ) ^ (-54 : ℤ) = u at *
  refine ⟨fun hrj => ?_, fun hlt => ?_, fun hl hle => ?_⟩
  · rw [hrej, decide_eq_true_eq] at hrj
    by_contra hcon
    have := hcmp' (not_le.1 hcon)
    linarith
  · rw [hrej, decide_eq_true_eq]
    have := hcmp hlt
    linarith
  · rw [hrej, decide_eq_true_eq, hleft hl]
    exact hfl.mono hle

/-- **C128, refuted for right-tailed criteria.** At level 0.05 with 10000 simulated values, 500
of them above the statistic: the exact p-value is `500/10000 = 0.05`, and in exact arithmetic
the test rejects.  In double precision `1 - 0.95` is larger than `0.05` and it does not.  The
left-tailed test with 500 values at or below the statistic does. -/
theorem C128_refuted_right (st : Statistic ℝ) (hst : st.alternative = .right) (size : ℤ) :
    ∃ L : List ℝ, L.length = 10000 ∧ exactTail .right L 1 = (1 : ℝ) / 20 ∧
      (∃ res, (pValueDecide (constResolver L) st 1 (1 / 20) size).exec () = (.ok res, ()) ∧
        res.rejected = true) ∧
      (∃ res, (Rounded.pValueDecide fl (constResolver L) st 1 (fl ((1 : ℕ) / (20 : ℕ))) size).exec () =
        (.ok res, ()) ∧ res.rejected = false) := by
  set L : List ℝ := List.replicate 9500 0 ++ List.replicate 500 2 with hLdef
  have hlen : L.length = 10000 := by
    rw [hLdef, List.length_append, List.length_replicate, List.length_replicate]
  have hL : L ≠ [] := by
    intro h
    rw [h] at hlen
    simp at hlen
  have hgt : (L.filter (fun x => (1 : ℝ) < x)).length = 500 := by
    rw [hLdef, List.filter_append, List.length_append, List.filter_replicate, List.filter_replicate]
    norm_num
  have hle : (L.countP (fun x => decide (x ≤ 1))) = 9500 := by
    rw [hLdef, List.countP_append, List.countP_replicate, List.countP_replicate]
    norm_num
  have htail : exactTail .right L 1 = (1 : ℝ) / 20 := by
    simp only [exactTail, fracGt]
    rw [hgt, hlen]
    norm_num
  have hlen0 : L.length ≠ 0 := by rw [hlen]; norm_num
  have hf : getConcreteFactory st.alternative = .right := by rw [hst]; decide
  refine ⟨L, hlen, htail, ⟨⟨1, some (1 / 20), none, true, 1 / 20⟩, ?_, rfl⟩,
    ⟨⟨1, some (fl (1 - fl (95 / 100))), none, false, fl ((1 : ℕ) / (20 : ℕ))⟩, ?_, rfl⟩⟩
  · have hp : rightPValue L (1 : ℝ) = .ok (1 / 20) := by
      unfold rightPValue Decision.ecdfEvaluate
      rw [if_neg hlen0, hle, hlen]
      simp only [bind, Except.bind, pure, Except.pure]
      norm_num
    unfold pValueDecide
    rw [exec_bind]
    simp only [constResolver, exec_pure, hf, Factory.pValue, hp, exec_bind, exec_lift]
    simp
  · have h95 : fl (95 / 100) = ((8556839292003942 : ℤ) : ℝ) * (2 : ℝ) ^ ((-1 : ℤ) - 52) := by
      apply hfl.eq_of_near
      · exact ⟨8556839292003942, -53, by norm_num, by norm_num, by norm_num, by norm_num⟩
      · norm_num
      · rw [abs_lt]; constructor <;> norm_num
    have h05 : fl (((1 : ℕ) : ℝ) / ((20 : ℕ) : ℝ)) =
        ((7205759403792794 : ℤ) : ℝ) * (2 : ℝ) ^ ((-5 : ℤ) - 52) := by
      apply hfl.eq_of_near
      · exact ⟨7205759403792794, -57, by norm_num, by norm_num, by norm_num, by norm_num⟩
      · norm_num
      · rw [abs_lt]; constructor <;> norm_num
    have hsub : fl (1 - fl (95 / 100)) = 450359962737050 * (2 : ℝ) ^ (-53 : ℤ) := by
      rw [h95]
      have : (1 : ℝ) - ((8556839292003942 : ℤ) : ℝ) * (2 : ℝ) ^ ((-1 : ℤ) - 52) =
          450359962737050 * (2 : ℝ) ^ (-53 : ℤ) := by norm_num
      rw [this]
      exact hfl.id ⟨450359962737050, -53, by norm_num, by norm_num, by norm_num, by norm_num⟩
    have hp : Rounded.pValue fl .right L 1 = .ok (fl (1 - fl (95 / 100))) := by
      unfold Rounded.pValue Rounded.ecdfEvaluate
      rw [if_neg hlen0, hle, hlen]
      simp only [bind, Except.bind, pure, Except.pure]
      norm_num
    have hnle : ¬ fl (1 - fl (95 / 100)) ≤ fl (((1 : ℕ) : ℝ) / ((20 : ℕ) : ℝ)) := by
      rw [hsub, h05]
      norm_num
    unfold Rounded.pValueDecide
    rw [exec_bind]
    simp only [constResolver, exec_pure, hf, hp, exec_bind, exec_lift]
    rw [decide_eq_false hnle]

end

/-- The hypotheses of `C128_decision_partial` hold at the library's default of 10000 simulated
values and level 1/20. -/
example : ∃ (fl : ℝ → ℝ) (L : List ℝ), RoundsToNearest fl ∧ L ≠ [] ∧ L.length * 20 ≤ 2 ^ 51 ∧
    (constResolver L ⟨"KS", none, "NORMAL", .right, fun _ => .ok 1⟩ 5).exec () = (.ok (some L), ()) ∧
    exactTail .right L 1 < ((1 : ℕ) : ℝ) / ((20 : ℕ) : ℝ) := by
  obtain ⟨fl, h⟩ := exists_rounding
  refine ⟨fl, List.replicate 10000 0, h, ?_, ?_, rfl, ?_⟩
  · intro hn
    have := congrArg List.length hn
    rw [List.length_replicate] at this
    simp at this
  · rw [List.length_replicate]; norm_num
  · simp only [exactTail, fracGt]
    rw [List.filter_replicate]
    norm_num

end Pysatl.Props
