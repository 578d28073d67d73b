import Verif.Model.NormalDomain
import Verif.Lemmas.Medcouple
import Verif.Props.NormalReturn
import Verif.Props.Likelihood
import Verif.Props.LMoments

/-! # C110: on which samples the normality statistics are defined -/

namespace Pysatl.Props

open Pysatl.Graph Pysatl.Normal Pysatl.Exponent Pysatl.Spec Pysatl.Edf

section
variable {α β : Type}

theorem ok_bind (a : α) (f : α → Except PyErr β) : ((.ok a : Except PyErr α) >>= f) = f a := rfl

theorem error_bind (e : PyErr) (f : α → Except PyErr β) :
    ((.error e : Except PyErr α) >>= f) = .error e := rfl

theorem pure_ok (a : α) : (pure a : Except PyErr α) = .ok a := rfl

theorem mapM_ok {f : α → Except PyErr β} {g : α → β} : ∀ {l : List α}, (∀ x ∈ l, f x = .ok (g x)) →
    l.mapM f = .ok (l.map g)
  | [], _ => rfl
  | a :: l, h => by
    rw [List.mapM_cons, h a (by simp), ok_bind, mapM_ok fun x hx => h x (by simp [hx])]
    rfl

theorem mapM_error {f : α → Except PyErr β} : ∀ {l : List α}, (∃ x ∈ l, ∃ e, f x = .error e) →
    ∃ e, l.mapM f = .error e
  | [], h => by obtain ⟨x, hx, _⟩ := h; simp at hx
  | a :: l, h => by
    rw [List.mapM_cons]
    rcases ha : f a with e | b
    · exact ⟨e, rfl⟩
    · obtain ⟨x, hx, e, he⟩ := h
      rcases List.mem_cons.1 hx with rfl | hx
      · rw [ha] at he; cases he
      · obtain ⟨e', he'⟩ := mapM_error ⟨x, hx, e, he⟩
        exact ⟨e', by rw [ok_bind, he']; rfl⟩

end

theorem pdiv_ok {a b : ℝ} (h : b ≠ 0) : pdiv a b = .ok (a / b) := if_neg h
theorem pdiv_zero (a : ℝ) : pdiv a 0 = .error .zeroDivisionError := if_pos rfl
theorem plog_ok {a : ℝ} (h : 0 < a) : plog a = .ok (Real.log a) := if_neg (not_le.2 h)
theorem psqrt_ok {a : ℝ} (h : 0 ≤ a) : psqrt a = .ok √a := if_neg (not_lt.2 h)
theorem ppow_ok {a p : ℝ} (h : 0 ≤ a) : ppow a p = .ok (a ^ p) := if_neg (not_lt.2 h)
theorem ppowNeg_ok {a p : ℝ} (h : 0 < a) : ppowNeg a p = .ok (a ^ (-p)) := if_neg (not_le.2 h)

theorem moment_two_pos {xs : List ℝ} (h : Varies xs) : 0 < moment 2 xs := by
  unfold moment
  generalize mean xs = m
  unfold mean
  rw [List.length_map]
  exact variance_pos h m

theorem graph_variance_pos {xs : List ℝ} (h : Varies xs) : 0 < Graph.variance xs := by
  unfold Graph.variance
  exact variance_pos h _

theorem sumsq_pos {xs : List ℝ} (h : Varies xs) (m : ℝ) : 0 < (xs.map fun x => (x - m) ^ 2).sum := by
  have h1 := variance_pos h m
  have hn : (0 : ℝ) < xs.length := by exact_mod_cast List.length_pos_iff.2 h.ne_nil
  by_contra h2
  exact absurd h1 (not_lt.2 (div_nonpos_of_nonpos_of_nonneg (not_lt.1 h2) hn.le))

theorem absdev_pos {xs : List ℝ} (h : Varies xs) (m : ℝ) : 0 < (xs.map fun x => |x - m|).sum := by
  refine sum_pos_of (by simp only [List.mem_map]; rintro _ ⟨x, _, rfl⟩; positivity) ?_
  obtain ⟨x, hx, y, hy, hxy⟩ := h
  by_cases h0 : x = m
  · refine ⟨_, List.mem_map.2 ⟨y, hy, rfl⟩, abs_ne_zero.2 (sub_ne_zero.2 ?_)⟩
    rintro rfl; exact hxy h0
  · exact ⟨_, List.mem_map.2 ⟨x, hx, rfl⟩, abs_ne_zero.2 (sub_ne_zero.2 h0)⟩

theorem varies_sort {xs : List ℝ} (h : Varies xs) : Varies (sort xs) := by
  obtain ⟨x, hx, y, hy, hxy⟩ := h
  exact ⟨x, (sort_perm xs).mem_iff.2 hx, y, (sort_perm xs).mem_iff.2 hy, hxy⟩

theorem varies_sub {xs : List ℝ} (h : Varies xs) (m : ℝ) : Varies (xs.map fun x => x - m) := by
  obtain ⟨x, hx, y, hy, hxy⟩ := h
  exact ⟨_, List.mem_map.2 ⟨x, hx, rfl⟩, _, List.mem_map.2 ⟨y, hy, rfl⟩, fun e => hxy (by linarith)⟩

theorem skewC_ok {xs : List ℝ} (h : Varies xs) : skewC xs = .ok (Normal.skew xs) := by
  have h2 := moment_two_pos h
  unfold skewC
  rw [ppow_ok h2.le, ok_bind, pdiv_ok (by positivity)]
  rfl

theorem kurtC_ok {xs : List ℝ} (h : Varies xs) : kurtC xs = .ok (Normal.kurt xs) := by
  have h2 := moment_two_pos h
  unfold kurtC
  rw [pdiv_ok (by positivity)]
  rfl

theorem jarqueBeraC_ok {xs : List ℝ} (h : Varies xs) : jarqueBeraC xs = jarqueBera xs := by
  unfold jarqueBeraC jarqueBera
  split_ifs
  · rfl
  simp only [skewC_ok (varies_sub h _), kurtC_ok (varies_sub h _), ok_bind, pure_ok]

/-- The quantity `beta2 - 3` of the skewness transformation changes sign at seven observations. -/
theorem skew_beta {n : ℝ} (h : 3 ≤ n) :
    3 * (n ^ 2 + 27 * n - 70) * (n + 1) * (n + 3) / ((n - 2) * (n + 5) * (n + 7) * (n + 9)) - 3 =
      36 * (n - 7) * (n ^ 2 + 2 * n - 5) / ((n - 2) * (n + 5) * (n + 7) * (n + 9)) := by
  have h1 : n - 2 ≠ 0 := by linarith
  have h2 : n + 5 ≠ 0 := by linarith
  have h3 : n + 7 ≠ 0 := by linarith
  have h4 : n + 9 ≠ 0 := by linarith
  field_simp
  ring

theorem skew_beta_gt {n : ℝ} (h : 8 ≤ n) :
    3 < 3 * (n ^ 2 + 27 * n - 70) * (n + 1) * (n + 3) / ((n - 2) * (n + 5) * (n + 7) * (n + 9)) := by
  have h0 := skew_beta (n := n) (by linarith)
  have h1 : 0 < n - 2 := by linarith
  have h2 : 0 < n - 7 := by linarith
  have h3 : 0 < n ^ 2 + 2 * n - 5 := by nlinarith
  have : 0 < 36 * (n - 7) * (n ^ 2 + 2 * n - 5) / ((n - 2) * (n + 5) * (n + 7) * (n + 9)) := by
    have : 0 < n := by linarith
    positivity
  linarith

theorem asinh_arg_pos (y : ℝ) : 0 < y + √(y ^ 2 + 1) := by
  have : |y| < √(y ^ 2 + 1) := by
    rw [← Real.sqrt_sq_eq_abs]
    exact Real.sqrt_lt_sqrt (sq_nonneg _) (by linarith)
  have := (abs_lt.1 this).1
  linarith

theorem w2_gt {b : ℝ} (h : 3 < b) : 1 < -1 + √(2 * (b - 1)) := by
  have : (2 : ℝ) < √(2 * (b - 1)) := by
    rw [Real.lt_sqrt (by norm_num)]
    linarith
  linarith

theorem skewZC_ok {n : ℝ} (h : 8 ≤ n) (b : ℝ) : skewZC n b = .ok (skewZ n b) := by
  have h2 : (0 : ℝ) < n - 2 := by linarith
  have hn : (0 : ℝ) < n := by linarith
  have hb := skew_beta_gt h
  unfold skewZC skewZ
  dsimp only
  rw [pdiv_ok (by positivity), ok_bind, psqrt_ok (by positivity), ok_bind, pdiv_ok (by positivity),
    ok_bind]
  generalize 3 * (n ^ 2 + 27 * n - 70) * (n + 1) * (n + 3) / ((n - 2) * (n + 5) * (n + 7) * (n + 9)) = B at *
  have hw := w2_gt hb
  rw [psqrt_ok (by linarith), ok_bind]
  generalize -1 + √(2 * (B - 1)) = w at *
  have hl := Real.log_pos hw
  have hw1 : 0 < w - 1 := by linarith
  have ha : 0 < √(2 / (w - 1)) := Real.sqrt_pos.2 (by positivity)
  rw [plog_ok (by linarith), ok_bind, psqrt_ok (by positivity), ok_bind,
    pdiv_ok (Real.sqrt_pos.2 (by positivity)).ne', ok_bind, pdiv_ok hw1.ne', ok_bind,
    psqrt_ok (by positivity), ok_bind, pdiv_ok ha.ne', ok_bind, psqrt_ok (by positivity), ok_bind,
    plog_ok (asinh_arg_pos _), ok_bind]
  rfl

theorem skewTestC_ok {xs : List ℝ} (h : Varies xs) : skewTestC xs = skewTest xs := by
  unfold skewTestC skewTest
  split_ifs with h8
  · rfl
  rw [skewC_ok (varies_sort h), ok_bind, skewZC_ok (by exact_mod_cast not_lt.1 h8)]

theorem dhZ1C_ok {n : ℝ} (h : 8 ≤ n) (s : ℝ) : dhZ1C s n = .ok (dhZ1 s n) := by
  have h2 : (0 : ℝ) < n - 2 := by linarith
  have hn : (0 : ℝ) < n := by linarith
  have hb := skew_beta_gt h
  unfold dhZ1C dhZ1
  dsimp only
  rw [pdiv_ok (by positivity), ok_bind]
  generalize 3 * (n ^ 2 + 27 * n - 70) * (n + 1) * (n + 3) / ((n - 2) * (n + 5) * (n + 7) * (n + 9)) = B at *
  have hw := w2_gt hb
  rw [psqrt_ok (by linarith), ok_bind]
  generalize -1 + √(2 * (B - 1)) = w at *
  have hsw : 1 < √w := by rw [Real.lt_sqrt (by norm_num)]; linarith
  have hl := Real.log_pos hsw
  have hw1 : 0 < w - 1 := by linarith
  have ha : 0 < √(2 / (w - 1)) := Real.sqrt_pos.2 (by positivity)
  rw [psqrt_ok (by linarith), ok_bind, plog_ok (by linarith), ok_bind, psqrt_ok hl.le, ok_bind,
    pdiv_ok (Real.sqrt_pos.2 hl).ne', ok_bind, pdiv_ok (by positivity), ok_bind,
    psqrt_ok (by positivity), ok_bind, pdiv_ok hw1.ne', ok_bind,
    psqrt_ok (by positivity), ok_bind, pdiv_ok ha.ne', ok_bind, psqrt_ok (by positivity), ok_bind,
    plog_ok (asinh_arg_pos _), ok_bind]
  rfl

/-- Pearson's inequality: kurtosis is at least one plus squared skewness. -/
theorem pearson_ineq {xs : List ℝ} (h : Varies xs) :
    1 + (moment 3 xs / moment 2 xs ^ (1.5 : ℝ)) ^ 2 ≤ moment 4 xs / moment 2 xs ^ 2 := by
  have h2 := moment_two_pos h
  have hn : (0 : ℝ) < xs.length := by exact_mod_cast List.length_pos_iff.2 h.ne_nil
  have e : (moment 2 xs ^ (1.5 : ℝ)) ^ 2 = moment 2 xs ^ 3 := by
    rw [← Real.rpow_natCast, ← Real.rpow_mul h2.le]
    norm_num
  rw [div_pow, e]
  have key : moment 2 xs ^ 3 + moment 3 xs ^ 2 ≤ moment 4 xs * moment 2 xs := by
    have hs : 0 ≤ mean (xs.map fun x => ((x - mean xs) ^ 2 - moment 2 xs -
        moment 3 xs / moment 2 xs * (x - mean xs)) ^ 2) := by
      unfold mean
      refine div_nonneg (List.sum_nonneg ?_) (by positivity)
      simp only [List.mem_map]
      rintro _ ⟨x, _, rfl⟩
      positivity
    have hm1 : mean (xs.map fun x => x - mean xs) = 0 := by
      unfold mean
      rw [List.length_map]
      have : ∀ (m : ℝ) (l : List ℝ), (l.map fun x => x - m).sum = l.sum - l.length * m := by
        intro m l
        induction l with
        | nil => simp
        | cons a l ih => simp only [List.map_cons, List.sum_cons, ih, List.length_cons]; push_cast; ring
      rw [this]
      field_simp
      ring
    have lin : ∀ (a b c d e : ℝ) (f : ℝ → ℝ), mean (xs.map fun x => a * f x ^ 4 + b * f x ^ 3 + c * f x ^ 2 + d * f x + e) =
        a * mean (xs.map fun x => f x ^ 4) + b * mean (xs.map fun x => f x ^ 3) +
        c * mean (xs.map fun x => f x ^ 2) + d * mean (xs.map f) + e := by
      intro a b c d e f
      unfold mean
      simp only [List.length_map]
      have : ∀ l : List ℝ, (l.map fun x => a * f x ^ 4 + b * f x ^ 3 + c * f x ^ 2 + d * f x + e).sum =
          a * (l.map fun x => f x ^ 4).sum + b * (l.map fun x => f x ^ 3).sum +
          c * (l.map fun x => f x ^ 2).sum + d * (l.map f).sum + l.length * e := by
        intro l
        induction l with
        | nil => simp
        | cons a l ih => simp only [List.map_cons, List.sum_cons, ih, List.length_cons]; push_cast; ring
      rw [this]
      field_simp
    have e2 : (fun x => ((x - mean xs) ^ 2 - moment 2 xs - moment 3 xs / moment 2 xs * (x - mean xs)) ^ 2) =
        fun x => 1 * (x - mean xs) ^ 4 + (-2 * (moment 3 xs / moment 2 xs)) * (x - mean xs) ^ 3 +
          ((moment 3 xs / moment 2 xs) ^ 2 - 2 * moment 2 xs) * (x - mean xs) ^ 2 +
          (2 * moment 2 xs * (moment 3 xs / moment 2 xs)) * (x - mean xs) + moment 2 xs ^ 2 := by
      funext x; ring
    rw [e2, lin _ _ _ _ _ (fun x => x - mean xs), hm1] at hs
    change 0 ≤ 1 * moment 4 xs + (-2 * (moment 3 xs / moment 2 xs)) * moment 3 xs +
      ((moment 3 xs / moment 2 xs) ^ 2 - 2 * moment 2 xs) * moment 2 xs + _ * 0 + moment 2 xs ^ 2 at hs
    generalize moment 2 xs = m2 at *
    generalize moment 3 xs = m3 at *
    generalize moment 4 xs = m4 at *
    have e3 : 1 * m4 + (-2 * (m3 / m2)) * m3 + ((m3 / m2) ^ 2 - 2 * m2) * m2 + 2 * m2 * (m3 / m2) * 0 + m2 ^ 2 =
        (m4 * m2 - m3 ^ 2 - m2 ^ 3) / m2 := by
      field_simp; ring
    rw [e3] at hs
    have := (div_nonneg_iff.1 hs)
    rcases this with h | h
    · linarith [h.1]
    · linarith [h.2]
  generalize moment 2 xs = m2 at *
  generalize moment 3 xs = m3 at *
  generalize moment 4 xs = m4 at *
  rw [show 1 + m3 ^ 2 / m2 ^ 3 = (m2 ^ 3 + m3 ^ 2) / m2 ^ 3 by field_simp,
    show m4 / m2 ^ 2 = m4 * m2 / m2 ^ 3 by field_simp]
  gcongr

theorem dhZ2C_ok {n : ℝ} (h : 8 ≤ n) {s k : ℝ} (hk : 1 + s ^ 2 ≤ k) : dhZ2C s k n = .ok (dhZ2 s k n) := by
  have h2 : (0 : ℝ) < n - 2 := by linarith
  have h3 : (0 : ℝ) < n - 3 := by linarith
  have h7 : (0 : ℝ) < n - 7 := by linarith
  have hn : (0 : ℝ) < n := by linarith
  have p1 : 0 < n ^ 2 + 15 * n - 4 := by nlinarith
  have p2 : 0 < n ^ 2 + 27 * n - 70 := by nlinarith
  have p3 : 0 < n ^ 2 + 2 * n - 5 := by nlinarith
  have p4 : 0 < n ^ 3 + 37 * n ^ 2 + 11 * n - 313 := by nlinarith [pow_pos hn 3]
  unfold dhZ2C dhZ2
  dsimp only
  generalize n ^ 2 + 15 * n - 4 = q1 at *
  generalize n ^ 2 + 27 * n - 70 = q2 at *
  generalize n ^ 2 + 2 * n - 5 = q3 at *
  generalize n ^ 3 + 37 * n ^ 2 + 11 * n - 313 = q4 at *
  have hd : 0 < (n - 3) * (n + 1) * q1 := by positivity
  generalize (n - 3) * (n + 1) * q1 = d at *
  have ha : 0 < (n - 2) * (n + 5) * (n + 7) * q2 / (6 * d) := by positivity
  have hc : 0 < (n - 7) * (n + 5) * (n + 7) * q3 / (6 * d) := by positivity
  have hkk : 0 < (n + 5) * (n + 7) * q4 / (12 * d) := by positivity
  rw [pdiv_ok (by positivity), ok_bind, pdiv_ok (by positivity), ok_bind, pdiv_ok (by positivity), ok_bind]
  generalize (n - 2) * (n + 5) * (n + 7) * q2 / (6 * d) = a at *
  generalize (n - 7) * (n + 5) * (n + 7) * q3 / (6 * d) = c at *
  generalize (n + 5) * (n + 7) * q4 / (12 * d) = kk at *
  have hal : 0 < a + s ^ 2 * c := by positivity
  have hq : 0 ≤ 0.5 * (2 * (k - 1 - s ^ 2) * kk) / (a + s ^ 2 * c) := by
    have : 0 ≤ k - 1 - s ^ 2 := by linarith
    positivity
  rw [pdiv_ok hal.ne', ok_bind, ppow_ok hq, ok_bind, pdiv_ok (by positivity), ok_bind,
    psqrt_ok (by positivity), ok_bind]
  rfl

theorem doornikHansenC_ok {xs : List ℝ} (h : Varies xs) (h8 : 8 ≤ xs.length) :
    doornikHansenC xs = .ok (doornikHansen xs) := by
  have h2 := moment_two_pos h
  have hn : (8 : ℝ) ≤ xs.length := by exact_mod_cast h8
  unfold doornikHansenC doornikHansen
  rw [ppow_ok h2.le, ok_bind, pdiv_ok (by positivity), ok_bind, pdiv_ok (by positivity), ok_bind,
    dhZ1C_ok hn, ok_bind, dhZ2C_ok hn (pearson_ineq h), ok_bind]
  rfl

theorem robustJarqueBeraC_ok {xs : List ℝ} (h : Varies xs) :
    robustJarqueBeraC xs = .ok (robustJarqueBera xs) := by
  have hn : (0 : ℝ) < xs.length := by exact_mod_cast List.length_pos_iff.2 h.ne_nil
  unfold robustJarqueBeraC robustJarqueBera
  dsimp only
  have ha := absdev_pos h (median (sort xs))
  have hj : 0 < √(Real.pi / 2) / xs.length * (xs.map fun x => |x - median (sort xs)|).sum := by
    have : 0 < √(Real.pi / 2) := Real.sqrt_pos.2 (by positivity)
    positivity
  rw [pdiv_ok hn.ne', ok_bind, pdiv_ok (by positivity), ok_bind, pdiv_ok (by positivity), ok_bind]
  rfl

theorem var1_pos {xs : List ℝ} (h : Varies xs) (h2 : 2 ≤ xs.length) : 0 < var1 xs := by
  unfold var1
  have : (2 : ℝ) ≤ xs.length := by exact_mod_cast h2
  exact div_pos (sumsq_pos h _) (by linarith)

theorem bontempsMeddahi1C_ok {xs : List ℝ} (h : Varies xs) (h2 : 2 ≤ xs.length) :
    bontempsMeddahi1C xs = .ok (bontempsMeddahi1 xs) := by
  have hv : 0 < var1' xs := by rw [var1'_eq _ h.ne_nil]; exact var1_pos h h2
  unfold bontempsMeddahi1C bontempsMeddahi1
  rw [psqrt_ok hv.le, ok_bind, mapM_ok fun x _ => pdiv_ok (Real.sqrt_pos.2 hv).ne', ok_bind]
  rfl

theorem bontempsMeddahi2C_ok {xs : List ℝ} (h : Varies xs) (h2 : 2 ≤ xs.length) :
    bontempsMeddahi2C xs = .ok (bontempsMeddahi2 xs) := by
  have hv := var1_pos h h2
  unfold bontempsMeddahi2C bontempsMeddahi2
  rw [psqrt_ok hv.le, ok_bind, mapM_ok fun x _ => pdiv_ok (Real.sqrt_pos.2 hv).ne', ok_bind]
  rfl

theorem bonettSeierC_ok {xs : List ℝ} (h : Varies xs) : bonettSeierC xs = .ok (bonettSeier xs) := by
  have hn : (0 : ℝ) < xs.length := by exact_mod_cast List.length_pos_iff.2 h.ne_nil
  have hv := variance_pos h (mean xs)
  have ha := absdev_pos h (mean xs)
  unfold bonettSeierC bonettSeier
  dsimp only
  rw [psqrt_ok hv.le, ok_bind, plog_ok (Real.sqrt_pos.2 hv), ok_bind, plog_ok (by positivity), ok_bind]
  rfl

theorem dagostinoC_ok {xs : List ℝ} (h : Varies xs) : dagostinoC xs = .ok (Normal.dagostino xs) := by
  have hn : (0 : ℝ) < xs.length := by exact_mod_cast List.length_pos_iff.2 h.ne_nil
  have hv : 0 < ((sort xs).map (· ^ 2)).sum / (xs.length : ℝ) - mean (sort xs) ^ 2 := by
    rw [← length_sort xs, variance_eq _ (varies_sort h).ne_nil]
    exact graph_variance_pos (varies_sort h)
  unfold dagostinoC Normal.dagostino
  dsimp only
  have := Real.sqrt_pos.2 hv
  rw [psqrt_ok hv.le, ok_bind, pdiv_ok (by positivity), ok_bind]
  rfl

theorem gmgC_ok {xs : List ℝ} (h : Varies xs) : gmgC xs = .ok (Normal.gmg xs) := by
  have hn : (0 : ℝ) < xs.length := by exact_mod_cast List.length_pos_iff.2 h.ne_nil
  have hv := variance_pos h (mean xs)
  have ha := absdev_pos h (median (sort xs))
  have : 0 < √(Real.pi / 2) := Real.sqrt_pos.2 (by positivity)
  unfold gmgC Normal.gmg
  dsimp only
  rw [psqrt_ok hv.le, ok_bind, pdiv_ok (by positivity)]

theorem eppsPulleyC_ok {xs : List ℝ} (h : Varies xs) : eppsPulleyC xs = .ok (Normal.eppsPulley xs) := by
  have hn : (0 : ℝ) < xs.length := by exact_mod_cast List.length_pos_iff.2 h.ne_nil
  have hv := graph_variance_pos (varies_sort h)
  unfold eppsPulleyC Normal.eppsPulley
  dsimp only
  rw [mapM_ok fun x _ => pdiv_ok (by positivity), ok_bind, mapM_ok fun x _ => pdiv_ok (by positivity),
    ok_bind, pdiv_ok hn.ne', ok_bind, pure_ok]
  simp only [List.map_map, List.map_flatMap, Function.comp_def]
  congr 4
  have : ∀ (g : ℕ → ℕ → ℝ) (n : ℕ), ((List.range n).flatMap fun k => (List.range k).map fun j => g j k).sum =
      ∑ k ∈ Finset.range n, ∑ j ∈ Finset.range k, g j k := by
    intro g n
    have hr : ∀ (f : ℕ → ℝ) (k : ℕ), ((List.range k).map f).sum = ∑ j ∈ Finset.range k, f j := by
      intro f k
      induction k with
      | zero => simp
      | succ k ih => rw [List.range_succ, List.map_append, List.sum_append, ih, Finset.sum_range_succ]; simp
    induction n with
    | zero => simp
    | succ n ih =>
      rw [List.range_succ, List.flatMap_append, List.sum_append, ih, Finset.sum_range_succ]
      simp [hr]
  exact this _ _

theorem spiegelhalterC_ok {xs : List ℝ} (h : Varies xs) (h4 : 4 ≤ xs.length) :
    spiegelhalterC xs = Normal.spiegelhalter xs := by
  have hn4 : (4 : ℝ) ≤ xs.length := by exact_mod_cast h4
  have hn : (0 : ℝ) < xs.length := by linarith
  have hn1 : (0 : ℝ) < xs.length - 1 := by linarith
  have hv := var1_pos h (by omega)
  have hs := Real.sqrt_pos.2 hv
  have ha := absdev_pos h (mean xs)
  have h1 := Real.sqrt_pos.2 hn
  have h2 := Real.sqrt_pos.2 hn1
  have hne := h.ne_nil
  obtain ⟨a, ea⟩ := npMax_exists hne
  obtain ⟨b, eb⟩ : ∃ b, Exponent.pyMin xs = .ok b := by
    unfold Exponent.pyMin
    rcases h' : xs.min? with _ | b
    · exact absurd (List.min?_eq_none_iff.1 h') hne
    · exact ⟨b, rfl⟩
  have hab : 0 < a - b := by
    have hb : ∀ x ∈ xs, b ≤ x := by
      unfold Exponent.pyMin at eb
      rcases h' : xs.min? with _ | c
      · rw [h'] at eb; cases eb
      · rw [h'] at eb; cases eb
        exact (List.min?_eq_some_iff.1 h').2
    have hA := (npMax_eq_ok.1 ea).2
    obtain ⟨x, hx, y, hy, hxy⟩ := h
    rcases lt_or_gt_of_ne hxy with h | h
    · linarith [hb x hx, hA y hy]
    · linarith [hb y hy, hA x hx]
  unfold spiegelhalterC Normal.spiegelhalter
  dsimp only
  rw [ea, eb, ok_bind, ok_bind, ok_bind, ok_bind, psqrt_ok hv.le, ok_bind, pdiv_ok hs.ne', ok_bind,
    pdiv_ok (by positivity), ok_bind]
  have hcn : 0 < (if xs.length < 150 then 0.5 * Real.Gamma ((xs.length : ℝ) + 1) ^ (1 / ((xs.length : ℝ) - 1)) / xs.length
    else (2 * Real.pi) ^ (1 / (2 * ((xs.length : ℝ) - 1))) * ((xs.length * √(xs.length : ℝ)) / Real.exp 1) ^ (1 / ((xs.length : ℝ) - 1)) /
      (2 * Real.exp 1)) := by
    have := Real.Gamma_pos_of_pos (s := (xs.length : ℝ) + 1) (by linarith)
    split_ifs <;> positivity
  generalize (if xs.length < 150 then 0.5 * Real.Gamma ((xs.length : ℝ) + 1) ^ (1 / ((xs.length : ℝ) - 1)) / xs.length
    else (2 * Real.pi) ^ (1 / (2 * ((xs.length : ℝ) - 1))) * ((xs.length * √(xs.length : ℝ)) / Real.exp 1) ^ (1 / ((xs.length : ℝ) - 1)) /
      (2 * Real.exp 1)) = cn at *
  rw [ppowNeg_ok (by positivity), ok_bind, ppowNeg_ok (by positivity), ok_bind, ppow_ok (by positivity)]
  rfl

/-! ### L-scale -/

/-- The trimmed L-scale as a weighted sum of spacings. -/
theorem lScale_eq (t : ℕ) (xs : List ℝ) :
    sampleLMoment t 2 xs = (∑ i ∈ Finset.range xs.length, (at_ (sort xs) (i + 1) - at_ (sort xs) i) *
      ((i + 1).choose (t + 1) * (xs.length - (i + 1)).choose (t + 1) : ℕ)) /
      (2 * (xs.length.choose (2 + 2 * t) : ℝ)) := by
  rw [sampleLMoment_eq]
  push_cast
  congr 1
  have key : ∀ m ≤ xs.length, (∑ i ∈ Finset.range m, at_ (sort xs) i *
      ∑ k ∈ Finset.range 2, (-1 : ℝ) ^ k * ((2 - 1).choose k : ℕ) *
        ((i.choose (2 + t - 1 - k) : ℕ) * ((xs.length - 1 - i).choose (t + k) : ℕ))) =
      (∑ i ∈ Finset.range m, (at_ (sort xs) (i + 1) - at_ (sort xs) i) *
      (((i + 1).choose (t + 1) : ℕ) * ((xs.length - (i + 1)).choose (t + 1) : ℕ))) -
      at_ (sort xs) m * ((m.choose (t + 1) : ℕ) * ((xs.length - m).choose (t + 1) : ℕ)) := by
    intro m
    induction m with
    | zero => intro _; simp
    | succ m ih =>
      intro hm
      rw [Finset.sum_range_succ, ih (by omega), Finset.sum_range_succ _ m]
      generalize (∑ i ∈ Finset.range m, (at_ (sort xs) (i + 1) - at_ (sort xs) i) *
        ((((i + 1).choose (t + 1) : ℕ) : ℝ) * ((xs.length - (i + 1)).choose (t + 1) : ℕ))) = S
      have e1 : xs.length - m = (xs.length - (m + 1)) + 1 := by omega
      have e2 : xs.length - 1 - m = xs.length - (m + 1) := by omega
      rw [e1, e2]
      generalize xs.length - (m + 1) = q
      simp only [Finset.sum_range_succ, Finset.sum_range_zero, Nat.choose_succ_succ' m t,
        Nat.choose_succ_succ' q t, show 2 + t - 1 - 0 = t + 1 by omega, show 2 + t - 1 - 1 = t by omega, Nat.reduceSub, Nat.choose_self,
        Nat.choose_zero_right, Nat.add_zero]
      push_cast
      ring
  have := key _ le_rfl
  rw [this]
  simp

theorem at_sort_mono (xs : List ℝ) {i j : ℕ} (hij : i ≤ j) (hj : j < xs.length) :
    at_ (sort xs) i ≤ at_ (sort xs) j := by
  have hl := length_sort xs
  unfold at_
  rw [List.getD_eq_getElem _ _ (by omega), List.getD_eq_getElem _ _ (by omega)]
  exact sorted_le (sort_pairwise xs) _ _ hij

/-- The trimmed L-scale vanishes exactly for samples whose trimmed part is constant. -/
theorem lScale_pos_iff {t : ℕ} {xs : List ℝ} (h : 2 + 2 * t ≤ xs.length) :
    0 < sampleLMoment t 2 xs ↔ at_ (sort xs) t < at_ (sort xs) (xs.length - 1 - t) := by
  have hc : (0 : ℝ) < 2 * (xs.length.choose (2 + 2 * t) : ℝ) := by
    have : 0 < xs.length.choose (2 + 2 * t) := Nat.choose_pos h
    positivity
  have hnn : ∀ i ∈ Finset.range xs.length, 0 ≤ (at_ (sort xs) (i + 1) - at_ (sort xs) i) *
      (((i + 1).choose (t + 1) * (xs.length - (i + 1)).choose (t + 1) : ℕ) : ℝ) := by
    intro i hi
    have hi := Finset.mem_range.1 hi
    rcases Nat.lt_or_ge (i + 1) xs.length with h1 | h1
    · exact mul_nonneg (sub_nonneg.2 (at_sort_mono xs (by omega) h1)) (Nat.cast_nonneg _)
    · rw [show xs.length - (i + 1) = 0 by omega]; simp
  have hmono := at_sort_mono xs (show t ≤ xs.length - 1 - t by omega) (by omega)
  rw [lScale_eq, div_pos_iff_of_pos_right hc]
  constructor
  · intro hp
    by_contra hlt
    have heq : at_ (sort xs) t = at_ (sort xs) (xs.length - 1 - t) := le_antisymm hmono (not_lt.1 hlt)
    refine hp.ne' (Finset.sum_eq_zero fun i hi => ?_)
    have hi := Finset.mem_range.1 hi
    by_cases h1 : t ≤ i ∧ i + 1 ≤ xs.length - 1 - t
    · have a1 := at_sort_mono xs h1.1 hi
      have a2 := at_sort_mono xs (show i ≤ i + 1 by omega) (by omega)
      have a3 := at_sort_mono xs h1.2 (by omega)
      rw [show at_ (sort xs) (i + 1) - at_ (sort xs) i = 0 by linarith, zero_mul]
    · rw [mul_eq_zero]
      right
      rw [Nat.cast_eq_zero, mul_eq_zero, Nat.choose_eq_zero_iff, Nat.choose_eq_zero_iff]
      omega
  · intro hlt
    refine lt_of_le_of_ne (Finset.sum_nonneg hnn) fun h0 => ?_
    have hz := (Finset.sum_eq_zero_iff_of_nonneg hnn).1 h0.symm
    have hstep : ∀ j, t + j ≤ xs.length - 1 - t → at_ (sort xs) (t + j) = at_ (sort xs) t := by
      intro j
      induction j with
      | zero => intro _; rfl
      | succ j ih =>
        intro hj
        have := hz (t + j) (Finset.mem_range.2 (by omega))
        rw [mul_eq_zero] at this
        rcases this with h1 | h1
        · rw [← ih (by omega), ← add_assoc]; linarith
        · rw [Nat.cast_eq_zero, mul_eq_zero, Nat.choose_eq_zero_iff, Nat.choose_eq_zero_iff] at h1
          omega
    have := hstep (xs.length - 1 - t - t) (by omega)
    rw [show t + (xs.length - 1 - t - t) = xs.length - 1 - t by omega] at this
    linarith

theorem hoskingStatC_ok {t n : ℕ} {l2 : ℝ} (h : l2 ≠ 0) (l3 l4 : ℝ) :
    hoskingStatC t n l2 l3 l4 = .ok (hoskingStat t n l2 l3 l4) := by
  unfold hoskingStatC hoskingStat
  dsimp only
  rw [pdiv_ok h, ok_bind, pdiv_ok h, ok_bind]
  rfl

theorem hoskingStatC_error (t n : ℕ) (l3 l4 : ℝ) :
    hoskingStatC t n 0 l3 l4 = .error .zeroDivisionError := by
  unfold hoskingStatC
  dsimp only
  rw [pdiv_zero, error_bind]

theorem lScale_zero_iff {t : ℕ} {xs : List ℝ} (h : 2 + 2 * t ≤ xs.length) :
    sampleLMoment t 2 xs = 0 ↔ at_ (sort xs) t = at_ (sort xs) (xs.length - 1 - t) := by
  have hmono := at_sort_mono xs (show t ≤ xs.length - 1 - t by omega) (by omega)
  have hp := lScale_pos_iff h
  have hnn : 0 ≤ sampleLMoment t 2 xs := by
    rw [lScale_eq]
    refine div_nonneg (Finset.sum_nonneg fun i hi => ?_) (by positivity)
    have hi := Finset.mem_range.1 hi
    rcases Nat.lt_or_ge (i + 1) xs.length with h1 | h1
    · exact mul_nonneg (sub_nonneg.2 (at_sort_mono xs (by omega) h1)) (Nat.cast_nonneg _)
    · rw [show xs.length - (i + 1) = 0 by omega]; simp
  constructor
  · intro h0
    by_contra hne
    exact (hp.2 (lt_of_le_of_ne hmono hne)).ne' h0
  · intro h0
    by_contra hne
    exact (hp.1 (lt_of_le_of_ne hnn (Ne.symm hne))).ne h0

theorem trimmedMomentC_ok {t r : ℕ} {xs : List ℝ} (hr : 1 ≤ r) (h : r + 2 * t ≤ xs.length) :
    trimmedMomentC t r xs = .ok (trimmedMoment t r xs) := by
  unfold trimmedMomentC trimmedMoment
  have : 0 < xs.length.choose (r + 2 * t) := Nat.choose_pos h
  have h1 : (0 : ℝ) < r := by exact_mod_cast hr
  rw [pdiv_ok (by positivity)]

theorem trimmedMomentC_error {t r : ℕ} {xs : List ℝ} (h : xs.length < r + 2 * t) :
    trimmedMomentC t r xs = .error .zeroDivisionError := by
  unfold trimmedMomentC
  rw [Nat.choose_eq_zero_of_lt h, Nat.cast_zero, mul_zero, pdiv_zero]

/-- When the trimmed statistics are defined. -/
theorem hoskingTrimmedC_cases {t : ℕ} (ht : 1 ≤ t) (xs : List ℝ) :
    (4 + 2 * t ≤ xs.length ∧ at_ (sort xs) t < at_ (sort xs) (xs.length - 1 - t) →
      hoskingTrimmedC t xs = .ok (hoskingTrimmed t xs)) ∧
    (¬ (4 + 2 * t ≤ xs.length ∧ at_ (sort xs) t < at_ (sort xs) (xs.length - 1 - t)) →
      hoskingTrimmedC t xs = .error .zeroDivisionError) := by
  unfold hoskingTrimmedC hoskingTrimmed
  rcases Nat.lt_or_ge xs.length (4 + 2 * t) with h4 | h4
  · refine ⟨fun h => absurd h.1 (by omega), fun _ => ?_⟩
    rcases Nat.lt_or_ge xs.length (2 + 2 * t) with h2 | h2
    · rw [trimmedMomentC_error h2, error_bind]
    rw [trimmedMomentC_ok (by omega) h2, ok_bind]
    rcases Nat.lt_or_ge xs.length (3 + 2 * t) with h3 | h3
    · rw [trimmedMomentC_error h3, error_bind]
    rw [trimmedMomentC_ok (by omega) h3, ok_bind, trimmedMomentC_error h4, error_bind]
  · rw [trimmedMomentC_ok (by omega) (by omega), ok_bind, trimmedMomentC_ok (by omega) (by omega),
      ok_bind, trimmedMomentC_ok (by omega) h4, ok_bind]
    refine ⟨fun h => ?_, fun h => ?_⟩
    · rw [hoskingStatC_ok]
      rw [trimmedMoment_eq ht]
      exact ((lScale_pos_iff (by omega)).2 h.2).ne'
    · have : trimmedMoment t 2 xs = 0 := by
        rw [trimmedMoment_eq ht, lScale_zero_iff (by omega)]
        refine le_antisymm (at_sort_mono xs (by omega) (by omega)) (not_lt.1 fun hl => h ⟨h4, hl⟩)
      rw [this, hoskingStatC_error]

theorem varies_iff_sort {xs : List ℝ} : Varies xs ↔ at_ (sort xs) 0 < at_ (sort xs) (xs.length - 1) := by
  have hl := length_sort xs
  constructor
  · rintro ⟨x, hx, y, hy, hxy⟩
    have hp : 0 < xs.length := List.length_pos_of_mem hx
    refine lt_of_le_of_ne (at_sort_mono xs (by omega) (by omega)) fun he => hxy ?_
    have all : ∀ z ∈ xs, z = at_ (sort xs) 0 := by
      intro z hz
      obtain ⟨i, hi, rfl⟩ := List.mem_iff_getElem.1 ((sort_perm xs).mem_iff.2 hz)
      have h1 := at_sort_mono xs (show 0 ≤ i by omega) (by omega)
      have h2 := at_sort_mono xs (show i ≤ xs.length - 1 by omega) (by omega)
      have e : at_ (sort xs) i = (sort xs)[i] := List.getD_eq_getElem _ _ _
      rw [e] at h1 h2
      linarith
    rw [all x hx, all y hy]
  · intro h
    have hp : 0 < xs.length := by
      by_contra h0
      rw [show xs.length - 1 = 0 by omega] at h
      exact lt_irrefl _ h
    refine ⟨_, (sort_perm xs).mem_iff.1 (List.getElem_mem (l := sort xs) (n := 0) (by omega)), _,
      (sort_perm xs).mem_iff.1 (List.getElem_mem (l := sort xs) (n := xs.length - 1) (by omega)), ?_⟩
    unfold at_ at h
    rw [List.getD_eq_getElem _ _ (by omega), List.getD_eq_getElem _ _ (by omega)] at h
    exact h.ne

theorem hosking1C_ok {xs : List ℝ} (h : Varies xs) (h4 : 4 ≤ xs.length) :
    hosking1C xs = .ok (hosking1 xs) := by
  obtain ⟨e2, -, -⟩ := hosking1_moments h4
  unfold hosking1C hosking1
  dsimp only
  rw [hoskingStatC_ok]
  rw [e2]
  have := (lScale_pos_iff (t := 0) (xs := xs) (by omega)).2 (by simpa using varies_iff_sort.1 h)
  exact this.ne'

/-! ### Desgagné-Lafaye -/

theorem desgagneLafayeC_ok {xs : List ℝ} (h : Varies xs) (hm : mean xs ∉ xs) :
    desgagneLafayeC xs = .ok (desgagneLafaye xs) := by
  have hv : 0 < (xs.map (· ^ 2)).sum / (xs.length : ℝ) - mean xs ^ 2 := by
    rw [variance_eq _ h.ne_nil]; exact graph_variance_pos h
  have hs := Real.sqrt_pos.2 hv
  unfold desgagneLafayeC desgagneLafaye
  dsimp only
  rw [psqrt_ok hv.le, ok_bind, mapM_ok fun x _ => pdiv_ok hs.ne', ok_bind,
    mapM_ok (g := fun t => t ^ 2 * Real.log |t|), ok_bind]
  · rfl
  simp only [List.mem_map]
  rintro _ ⟨x, hx, rfl⟩
  rw [plog_ok, ok_bind]
  · rfl
  refine abs_pos.2 (div_ne_zero (sub_ne_zero.2 ?_) hs.ne')
  rintro rfl
  exact hm hx

theorem desgagneLafayeC_error {xs : List ℝ} (hm : mean xs ∈ xs) : ∃ e, desgagneLafayeC xs = .error e := by
  unfold desgagneLafayeC
  dsimp only
  have hne : xs ≠ [] := List.ne_nil_of_mem hm
  have hv : 0 ≤ (xs.map (· ^ 2)).sum / (xs.length : ℝ) - mean xs ^ 2 := by
    rw [variance_eq _ hne]
    unfold Graph.variance
    exact div_nonneg (sumsq_nonneg xs) (Nat.cast_nonneg _)
  rw [psqrt_ok hv, ok_bind]
  generalize √((xs.map (· ^ 2)).sum / (xs.length : ℝ) - mean xs ^ 2) = sd
  by_cases hs : sd = 0
  · obtain ⟨e, he⟩ := mapM_error (f := fun x => pdiv (x - mean xs) sd) (l := xs)
      ⟨_, hm, .zeroDivisionError, by rw [hs, pdiv_zero]⟩
    exact ⟨e, by rw [he, error_bind]⟩
  · rw [mapM_ok fun x _ => pdiv_ok hs, ok_bind]
    obtain ⟨e, he⟩ := mapM_error (f := fun t : ℝ => (do
        let l ← plog |t|
        return t ^ 2 * l : Except PyErr ℝ)) (l := xs.map fun x => (x - mean xs) / sd)
      ⟨_, List.mem_map.2 ⟨_, hm, rfl⟩, .valueError, by
        simp only [sub_self, zero_div, abs_zero]
        rw [plog, if_pos le_rfl, error_bind]⟩
    exact ⟨e, by rw [he, error_bind]⟩

/-! ### Martinez-Iglewicz -/

theorem sort_getD_gt {l : List ℝ} {v : ℝ} {i : ℕ} (h : l.countP (fun a => decide (a ≤ v)) ≤ i)
    (hi : i < l.length) : v < at_ (sort l) i := by
  unfold at_
  have hp := (sort_perm l).countP_eq (fun a => decide (a ≤ v))
  have hi' : i < (sort l).length := by rwa [(sort_perm l).length_eq]
  rw [List.getD_eq_getElem _ _ hi']
  by_contra hv
  rw [not_lt] at hv
  have hs := List.pairwise_iff_getElem.1 (sort_pairwise l)
  rw [← hp, ← List.take_append_drop (i + 1) (sort l), List.countP_append] at h
  have h0 : ((sort l).take (i + 1)).countP (fun a => decide (a ≤ v)) = i + 1 := by
    have : ((sort l).take (i + 1)).length = i + 1 := by rw [List.length_take]; omega
    refine Eq.trans (List.countP_eq_length.2 ?_) this
    intro a ha
    obtain ⟨j, hj, rfl⟩ := List.getElem_of_mem ha
    rw [List.getElem_take]
    rw [List.length_take] at hj
    simp only [decide_eq_true_eq]
    rcases Nat.lt_or_ge j i with hj0 | hj0
    · exact (hs j i (by omega) hi' hj0).trans hv
    · have : j = i := by omega
      subst this; exact hv
  omega

theorem count_le_countP (c : ℝ) : ∀ l : List ℝ, l.count c ≤ l.countP (fun a => decide (a ≤ c)) ∧
    l.countP (fun a => decide (a < c)) + l.count c ≤ l.length
  | [] => by simp
  | a :: l => by
    obtain ⟨h1, h2⟩ := count_le_countP c l
    rw [List.count_cons, List.countP_cons, List.countP_cons, List.length_cons]
    rcases lt_trichotomy a c with h | h | h
    · have e1 : (a == c) = false := by simpa using h.ne
      simp only [e1, decide_eq_true h.le, decide_eq_true h]
      constructor <;> simp <;> omega
    · subst h
      simp
      omega
    · have e1 : (a == c) = false := by simpa using h.ne'
      simp only [e1, decide_eq_false (not_le.2 h), decide_eq_false (not_lt.2 h.le)]
      constructor <;> simp <;> omega

theorem median_majority {xs : List ℝ} {c : ℝ} (h : xs.length < 2 * xs.count c) :
    median (sort xs) = c := by
  obtain ⟨h1, h2⟩ := count_le_countP c xs
  have hc : xs.count c ≤ xs.length := List.count_le_length
  have key : ∀ i, i < xs.count c → xs.length ≤ i + xs.count c → at_ (sort xs) i = c := fun i a b =>
    le_antisymm (Medcouple.sort_getD_le (by omega)) (Medcouple.sort_getD_ge (by omega) (by omega))
  unfold median
  rw [length_sort]
  split_ifs with he
  · rw [key _ (by omega) (by omega), key _ (by omega) (by omega)]; ring
  · exact key _ (by omega) (by omega)

theorem martinezIglewiczC_error {xs : List ℝ} {c : ℝ} (h : xs.length < 2 * xs.count c) :
    martinezIglewiczC xs = .error .zeroDivisionError := by
  unfold martinezIglewiczC
  dsimp only
  rw [median_majority h]
  have h0 : median (sort ((xs.map fun x => x - c).map fun v => |v|)) = 0 := by
    apply median_majority
    rw [List.length_map, List.length_map]
    refine h.trans_le ?_
    have := List.count_le_count_map (l := xs) (f := fun x => |x - c|) (x := c)
    simp only [sub_self, abs_zero] at this
    rw [List.map_map]
    exact Nat.mul_le_mul_left 2 this
  rw [h0, mul_zero]
  have hne : xs ≠ [] := by rintro rfl; simp at h
  obtain ⟨a, l, rfl⟩ := List.exists_cons_of_ne_nil hne
  rw [List.map_cons, List.mapM_cons, pdiv_zero, error_bind, error_bind]

theorem mi_weight (u : ℝ) : -0.8 ≤ (1 - u) * (1 - 5 * u) := by nlinarith [sq_nonneg (u - 0.6)]

theorem mi_sum {A : ℝ} (hA : 0 < A) : ∀ l : List ℝ,
    0.9 * (l.countP (fun v => decide (|v| ≤ A)) : ℝ) - 0.8 * (l.length - l.countP (fun v => decide (|v| ≤ A)) : ℝ) ≤
      (l.map fun v => (1 - (v / (9 * A)) ^ 2) * (1 - 5 * (v / (9 * A)) ^ 2)).sum
  | [] => by simp
  | v :: l => by
    have ih := mi_sum hA l
    rw [List.map_cons, List.sum_cons, List.countP_cons, List.length_cons]
    by_cases hv : |v| ≤ A
    · have hu : (v / (9 * A)) ^ 2 ≤ 1 / 81 := by
        rw [div_pow, mul_pow, div_le_iff₀ (by positivity)]
        have : v ^ 2 ≤ A ^ 2 := sq_le_sq' (by linarith [(abs_le.1 hv).1]) (abs_le.1 hv).2
        linarith
      have : 0.9 ≤ (1 - (v / (9 * A)) ^ 2) * (1 - 5 * (v / (9 * A)) ^ 2) := by
        have h0 := sq_nonneg (v / (9 * A))
        nlinarith
      simp only [hv, decide_true, if_true]
      push_cast
      linarith
    · have := mi_weight ((v / (9 * A)) ^ 2)
      simp only [hv, decide_false, Bool.false_eq_true, if_false]
      push_cast
      linarith

/-- Median of the absolute values `l` and its two neighbours. -/
theorem median_bounds {l : List ℝ} (h0 : ∀ v ∈ l, 0 ≤ v) (h : 0 < median (sort l)) (hne : l ≠ []) :
    (∃ w ∈ l, 0 < w ∧ w ≤ 2 * median (sort l)) ∧
      l.length ≤ 2 * l.countP (fun v => decide (v ≤ median (sort l))) := by
  have hlen : 0 < l.length := List.length_pos_iff.2 hne
  have hl := length_sort l
  have hmem : ∀ i < l.length, at_ (sort l) i ∈ l := fun i hi => by
    unfold at_
    rw [List.getD_eq_getElem _ _ (by omega)]
    exact (sort_perm l).mem_iff.1 (List.getElem_mem _)
  have hcnt : ∀ i < l.length, at_ (sort l) i ≤ median (sort l) →
      i + 1 ≤ l.countP (fun v => decide (v ≤ median (sort l))) := fun i hi hle => by
    by_contra hc
    exact absurd (sort_getD_gt (by omega) hi) (not_lt.2 hle)
  by_cases he : l.length % 2 = 0
  · have hm : median (sort l) = (at_ (sort l) (l.length / 2) + at_ (sort l) (l.length / 2 - 1)) / 2 := by
      unfold median; rw [hl, if_pos he]
    have hmo := at_sort_mono l (show l.length / 2 - 1 ≤ l.length / 2 by omega) (by omega)
    have hnn := h0 _ (hmem (l.length / 2 - 1) (by omega))
    refine ⟨⟨_, hmem (l.length / 2) (by omega), by linarith, by linarith⟩, ?_⟩
    have := hcnt (l.length / 2 - 1) (by omega) (by linarith)
    omega
  · have hm : median (sort l) = at_ (sort l) (l.length / 2) := by
      unfold median; rw [hl, if_neg he]
    refine ⟨⟨_, hmem (l.length / 2) (by omega), by linarith, by linarith⟩, ?_⟩
    have := hcnt (l.length / 2) (by omega) hm.symm.le
    omega

theorem martinezIglewiczC_ok_of {xs : List ℝ} (hne : xs ≠ []) (hn : xs.length ≠ 1)
    (h : 0 < median (sort ((xs.map fun x => x - median (sort xs)).map fun v => |v|))) :
    martinezIglewiczC xs = .ok (martinezIglewicz xs) := by
  unfold martinezIglewiczC martinezIglewicz
  dsimp only
  generalize hm : median (sort xs) = m at *
  generalize hb : xs.map (fun x => x - m) = aux at *
  have hlen : aux.length = xs.length := by rw [← hb, List.length_map]
  have hne' : aux ≠ [] := by
    intro h0; rw [h0] at hlen; exact hne (List.length_eq_zero_iff.1 hlen.symm)
  obtain ⟨⟨w, hw, hw0, hw2⟩, hc⟩ := median_bounds (l := aux.map fun v => |v|)
    (by simp only [List.mem_map]; rintro _ ⟨x, _, rfl⟩; positivity) h (by simpa using hne')
  rw [List.countP_map, List.length_map] at hc
  generalize median (sort (aux.map fun v => |v|)) = A at *
  have hcc : (aux.length : ℝ) ≤ 2 * (aux.countP (fun v => decide (|v| ≤ A)) : ℝ) := by
    exact_mod_cast hc
  have hpos : (0 : ℝ) < aux.length := by exact_mod_cast List.length_pos_iff.2 hne'
  have ht2 : 0 < (aux.map fun v => (1 - (v / (9 * A)) ^ 2) * (1 - 5 * (v / (9 * A)) ^ 2)).sum := by
    have := mi_sum h aux
    linarith
  have ht1 : 0 < (aux.map fun v => v ^ 2 * (1 - (v / (9 * A)) ^ 2) ^ 4).sum := by
    refine sum_pos_of (by simp only [List.mem_map]; rintro _ ⟨x, _, rfl⟩; positivity) ?_
    obtain ⟨v, hv, rfl⟩ := List.mem_map.1 hw
    refine ⟨_, List.mem_map.2 ⟨v, hv, rfl⟩, mul_ne_zero ?_ (pow_ne_zero _ ?_)⟩
    · exact pow_ne_zero _ (abs_pos.1 hw0)
    · have : (v / (9 * A)) ^ 2 ≤ 4 / 81 := by
        rw [div_pow, mul_pow, div_le_iff₀ (by positivity)]
        have : v ^ 2 ≤ (2 * A) ^ 2 := sq_le_sq' (by linarith [(abs_le.1 hw2).1]) (abs_le.1 hw2).2
        nlinarith
      linarith
  have hn1 : (0 : ℝ) < xs.length := by rw [← hlen]; exact hpos
  rw [mapM_ok fun x _ => pdiv_ok (by positivity), ok_bind, List.zipWith_map_right, List.zipWith_self,
    List.map_map]
  simp only [Function.comp_def]
  rw [pdiv_ok (by positivity), ok_bind, pdiv_ok (by positivity)]

theorem martinezIglewiczC_ok {xs : List ℝ} (hne : xs ≠ []) (h : ∀ c, 2 * xs.count c < xs.length) :
    martinezIglewiczC xs = .ok (martinezIglewicz xs) := by
  have hn : xs.length ≠ 1 := by
    intro h1
    obtain ⟨a, rfl⟩ := List.length_eq_one_iff.1 h1
    have := h a
    simp at this
  refine martinezIglewiczC_ok_of hne hn ?_
  generalize hm : median (sort xs) = m
  have hl : ((xs.map fun x => x - m).map fun v => |v|).length = xs.length := by simp
  have hpos : 0 < xs.length := List.length_pos_iff.2 hne
  have hc : ((xs.map fun x => x - m).map fun v => |v|).countP (fun a => decide (a ≤ 0)) = xs.count m := by
    rw [List.countP_map, List.countP_map, List.count]
    congr 1
    funext x
    by_cases hx : x = m <;> simp [hx, sub_eq_zero]
  have hm' := h m
  have hnn : ∀ i, i < xs.length → 0 ≤ at_ (sort ((xs.map fun x => x - m).map fun v => |v|)) i := by
    intro i hi
    unfold at_
    refine Medcouple.sort_getD_ge ?_ (by omega)
    rw [List.countP_eq_zero.2]
    · exact Nat.zero_le _
    · simp only [List.mem_map, decide_eq_true_eq, not_lt]
      rintro _ ⟨x, _, rfl⟩
      positivity
  have hgt : 0 < at_ (sort ((xs.map fun x => x - m).map fun v => |v|)) (xs.length / 2) :=
    sort_getD_gt (by rw [hc]; omega) (by omega)
  unfold median
  rw [length_sort, hl]
  split_ifs
  · have := hnn (xs.length / 2 - 1) (by omega)
    positivity
  · exact hgt

/-! ### Doornik-Hansen for small samples -/

theorem dhZ1C_error {n : ℝ} (h4 : 4 ≤ n) (h7 : n ≤ 7) (s : ℝ) : ∃ e, dhZ1C s n = .error e := by
  have h2 : (0 : ℝ) < n - 2 := by linarith
  have hn : (0 : ℝ) < n := by linarith
  have hb : 3 * (n ^ 2 + 27 * n - 70) * (n + 1) * (n + 3) / ((n - 2) * (n + 5) * (n + 7) * (n + 9)) ≤ 3 := by
    have h0 := skew_beta (n := n) (by linarith)
    have h3 : 0 < n ^ 2 + 2 * n - 5 := by nlinarith
    have : 36 * (n - 7) * (n ^ 2 + 2 * n - 5) / ((n - 2) * (n + 5) * (n + 7) * (n + 9)) ≤ 0 := by
      apply div_nonpos_of_nonpos_of_nonneg
      · nlinarith
      · positivity
    linarith
  unfold dhZ1C
  dsimp only
  rw [pdiv_ok (by positivity), ok_bind]
  generalize 3 * (n ^ 2 + 27 * n - 70) * (n + 1) * (n + 3) / ((n - 2) * (n + 5) * (n + 7) * (n + 9)) = B at *
  by_cases hB : 0 ≤ 2 * (B - 1)
  swap
  · exact ⟨_, by rw [psqrt, if_pos (not_le.1 hB), error_bind]⟩
  rw [psqrt_ok hB, ok_bind]
  have hw : -1 + √(2 * (B - 1)) ≤ 1 := by
    have : √(2 * (B - 1)) ≤ 2 := Real.sqrt_le_iff.2 ⟨by norm_num, by linarith⟩
    linarith
  generalize -1 + √(2 * (B - 1)) = w at *
  by_cases hw0 : 0 ≤ w
  swap
  · exact ⟨_, by rw [psqrt, if_pos (not_le.1 hw0), error_bind]⟩
  rw [psqrt_ok hw0, ok_bind]
  have hs : √w ≤ 1 := Real.sqrt_le_one.2 hw
  by_cases hs0 : 0 < √w
  swap
  · exact ⟨_, by rw [plog, if_pos (not_lt.1 hs0), error_bind]⟩
  rw [plog_ok hs0, ok_bind]
  have hl := Real.log_nonpos hs0.le hs
  rcases lt_or_eq_of_le hl with hl | hl
  · exact ⟨_, by rw [psqrt, if_pos hl, error_bind]⟩
  · exact ⟨_, by rw [hl, psqrt_ok le_rfl, ok_bind, Real.sqrt_zero, pdiv_zero, error_bind]⟩

theorem doornikHansenC_error {xs : List ℝ} (h4 : 4 ≤ xs.length) (h7 : xs.length ≤ 7) :
    ∃ e, doornikHansenC xs = .error e := by
  obtain ⟨e, he⟩ := dhZ1C_error (n := xs.length) (by exact_mod_cast h4) (by exact_mod_cast h7)
    (moment 3 xs / moment 2 xs ^ (1.5 : ℝ))
  unfold doornikHansenC
  rw [ppow_ok (moment_two_nonneg xs), ok_bind]
  by_cases h1 : moment 2 xs ^ (1.5 : ℝ) = 0
  · exact ⟨_, by rw [h1, pdiv_zero, error_bind]⟩
  rw [pdiv_ok h1, ok_bind]
  by_cases h2 : moment 2 xs ^ 2 = 0
  · exact ⟨_, by rw [h2, pdiv_zero, error_bind]⟩
  exact ⟨e, by rw [pdiv_ok h2, ok_bind, he, error_bind]⟩

/-! ### The property -/

theorem kthSmallest_eq (xs : List ℝ) (k : ℕ) :
    kthSmallest (xs : Multiset ℝ) k = at_ (sort xs) (k - 1) := by
  rw [show (xs : Multiset ℝ) = (sort xs : Multiset ℝ) from Multiset.coe_eq_coe.2 (sort_perm xs).symm]
  exact kthSmallest_sublist (List.Sublist.refl _) k

/-- **C110**: Hosking's statistic with `t = 1, 2, 3` observations trimmed on either side is defined
for at least `4 + 2 t` observations that are not all equal after trimming. -/
theorem C110_hosking_partial (lib : NormLib) (xs : List ℝ) :
    (6 ≤ xs.length → kthSmallest xs 2 < kthSmallest xs (xs.length - 1) →
      NormStat.hosking2.checked lib xs = NormStat.hosking2.value lib xs) ∧
    (8 ≤ xs.length → kthSmallest xs 3 < kthSmallest xs (xs.length - 2) →
      NormStat.hosking3.checked lib xs = NormStat.hosking3.value lib xs) ∧
    (10 ≤ xs.length → kthSmallest xs 4 < kthSmallest xs (xs.length - 3) →
      NormStat.hosking4.checked lib xs = NormStat.hosking4.value lib xs) := by
  simp only [kthSmallest_eq]
  refine ⟨fun h1 h2 => ?_, fun h1 h2 => ?_, fun h1 h2 => ?_⟩ <;>
    simp only [NormStat.checked, NormStat.value, guarded, if_pos (show 3 < xs.length by omega)]
  · rw [(hoskingTrimmedC_cases le_rfl xs).1 ⟨by omega, h2⟩]; rfl
  · rw [(hoskingTrimmedC_cases (by omega) xs).1
      ⟨by omega, by rw [show xs.length - 1 - 2 = xs.length - 2 - 1 by omega]; exact h2⟩]
  · rw [(hoskingTrimmedC_cases (by omega) xs).1
      ⟨by omega, by rw [show xs.length - 1 - 3 = xs.length - 3 - 1 by omega]; exact h2⟩]

/-- **C110 (refuted)**: for fewer observations, or when the observations left after trimming coincide,
the three statistics divide by zero, although the sample may vary. -/
theorem C110_refuted_hosking (lib : NormLib) {xs : List ℝ} (h4 : 4 ≤ xs.length) :
    (xs.length < 6 ∨ kthSmallest xs 2 = kthSmallest xs (xs.length - 1) →
      NormStat.hosking2.checked lib xs = .error .zeroDivisionError) ∧
    (xs.length < 8 ∨ kthSmallest xs 3 = kthSmallest xs (xs.length - 2) →
      NormStat.hosking3.checked lib xs = .error .zeroDivisionError) ∧
    (xs.length < 10 ∨ kthSmallest xs 4 = kthSmallest xs (xs.length - 3) →
      NormStat.hosking4.checked lib xs = .error .zeroDivisionError) := by
  simp only [kthSmallest_eq]
  refine ⟨fun h1 => ?_, fun h1 => ?_, fun h1 => ?_⟩ <;>
    simp only [NormStat.checked, guarded, if_pos (show 3 < xs.length by omega)]
  · rw [(hoskingTrimmedC_cases le_rfl xs).2]
    · rfl
    rintro ⟨a, b⟩
    rcases h1 with h1 | h1
    · omega
    · exact b.ne h1
  · rw [(hoskingTrimmedC_cases (by omega) xs).2]
    · rfl
    rintro ⟨a, b⟩
    rcases h1 with h1 | h1
    · omega
    · rw [show xs.length - 1 - 2 = xs.length - 2 - 1 by omega] at b
      exact b.ne h1
  · rw [(hoskingTrimmedC_cases (by omega) xs).2]
    · rfl
    rintro ⟨a, b⟩
    rcases h1 with h1 | h1
    · omega
    · rw [show xs.length - 1 - 3 = xs.length - 3 - 1 by omega] at b
      exact b.ne h1

/-- Ten observations of which eight coincide vary, but not after trimming. -/
example : let xs : List ℝ := [1, 2, 2, 2, 2, 2, 2, 2, 2, 3]
    Varies xs ∧ 10 ≤ xs.length ∧ kthSmallest xs 2 = kthSmallest xs (xs.length - 1) := by
  dsimp only
  refine ⟨⟨1, by simp, 3, by simp, by norm_num⟩, by simp, ?_⟩
  have hs : sort ([1, 2, 2, 2, 2, 2, 2, 2, 2, 3] : List ℝ) = [1, 2, 2, 2, 2, 2, 2, 2, 2, 3] := by
    apply List.Pairwise.insertionSort_eq
    norm_num
  rw [kthSmallest_eq, kthSmallest_eq, hs]
  simp [at_]

example : let xs : List ℝ := [1, 2, 3, 4, 5, 6, 7, 8, 9, 10]
    10 ≤ xs.length ∧ kthSmallest xs 4 < kthSmallest xs (xs.length - 3) := by
  dsimp only
  refine ⟨by simp, ?_⟩
  have hs : sort ([1, 2, 3, 4, 5, 6, 7, 8, 9, 10] : List ℝ) = [1, 2, 3, 4, 5, 6, 7, 8, 9, 10] := by
    apply List.Pairwise.insertionSort_eq
    norm_num
  rw [kthSmallest_eq, kthSmallest_eq, hs]
  norm_num [at_]

/-- **C110**: the Desgagné-Lafaye statistic is defined for a sample that varies and does not contain its
own mean. -/
theorem C110_desgagneLafaye_partial (lib : NormLib) {xs : List ℝ} (h : Varies xs) (hm : mean xs ∉ xs) :
    NormStat.desgagneLafaye.checked lib xs = NormStat.desgagneLafaye.value lib xs := by
  simp only [NormStat.checked, NormStat.value]
  rw [desgagneLafayeC_ok h hm]

/-- **C110 (refuted)**: one observation equal to the sample mean makes the Desgagné-Lafaye statistic
undefined (the code computes `0 * log 0`). -/
theorem C110_refuted_desgagneLafaye (lib : NormLib) {xs : List ℝ} (h4 : 4 ≤ xs.length)
    (hm : mean xs ∈ xs) : ∃ e, NormStat.desgagneLafaye.checked lib xs = .error e := by
  obtain ⟨e, he⟩ := desgagneLafayeC_error hm
  refine ⟨e, ?_⟩
  simp only [NormStat.checked, guarded, if_pos (show 3 < xs.length by omega)]
  rw [he]; rfl

example : Varies ([1, 2, 3, 4, 5] : List ℝ) ∧ 4 ≤ ([1, 2, 3, 4, 5] : List ℝ).length ∧
    mean ([1, 2, 3, 4, 5] : List ℝ) ∈ ([1, 2, 3, 4, 5] : List ℝ) ∧
    mean ([1, 2, 3, 5] : List ℝ) ∉ ([1, 2, 3, 5] : List ℝ) := by
  refine ⟨⟨1, by simp, 3, by simp, by norm_num⟩, by simp, ?_, ?_⟩ <;> norm_num [mean]

/-- **C110**: the Martinez-Iglewicz statistic is defined when no value is taken by half of the
observations or more. -/
theorem C110_martinezIglewicz_partial (lib : NormLib) {xs : List ℝ} (hne : xs ≠ [])
    (h : ∀ c, 2 * xs.count c < xs.length) :
    NormStat.martinezIglewicz.checked lib xs = NormStat.martinezIglewicz.value lib xs := by
  simp only [NormStat.checked, NormStat.value]
  rw [martinezIglewiczC_ok hne h]

/-- **C110 (refuted)**: it divides by zero when more than half of the observations coincide. -/
theorem C110_refuted_martinezIglewicz (lib : NormLib) {xs : List ℝ} (h4 : 4 ≤ xs.length) {c : ℝ}
    (h : xs.length < 2 * xs.count c) :
    NormStat.martinezIglewicz.checked lib xs = .error .zeroDivisionError := by
  simp only [NormStat.checked, guarded, if_pos (show 3 < xs.length by omega)]
  rw [martinezIglewiczC_error h]; rfl

example : Varies ([1, 2, 2, 2, 5] : List ℝ) ∧ 4 ≤ ([1, 2, 2, 2, 5] : List ℝ).length ∧
    ([1, 2, 2, 2, 5] : List ℝ).length < 2 * ([1, 2, 2, 2, 5] : List ℝ).count 2 := by
  refine ⟨⟨1, by simp, 5, by simp, by norm_num⟩, by simp, ?_⟩
  norm_num [List.count_cons]

example : ∀ c, 2 * ([1, 2, 3, 4] : List ℝ).count c < ([1, 2, 3, 4] : List ℝ).length := by
  intro c
  have : ([1, 2, 3, 4] : List ℝ).Nodup := by norm_num
  have := List.nodup_iff_count_le_one.1 this c
  simp only [List.length_cons, List.length_nil]
  omega

/-- **C110 (refuted)**: the Doornik-Hansen statistic is undefined for four to seven observations,
whatever they are: the transformation of the skewness takes the root of a logarithm that is negative,
or divides by zero. -/
theorem C110_refuted_doornikHansen (lib : NormLib) {xs : List ℝ} (h4 : 4 ≤ xs.length)
    (h7 : xs.length ≤ 7) : ∃ e, NormStat.doornikHansen.checked lib xs = .error e := by
  obtain ⟨e, he⟩ := doornikHansenC_error h4 h7
  refine ⟨e, ?_⟩
  simp only [NormStat.checked]
  rw [he]; rfl

example : 4 ≤ ([1, 2, 4, 8, 16, 32, 64] : List ℝ).length ∧ ([1, 2, 4, 8, 16, 32, 64] : List ℝ).length ≤ 7 := by
  simp

end Pysatl.Props
