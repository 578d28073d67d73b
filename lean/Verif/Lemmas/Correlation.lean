import Verif.Lemmas.Normal

/-! # Cauchy-Schwarz for lists and the correlation of two lists -/

namespace Pysatl.Normal

open Pysatl.Decision Pysatl.Graph Pysatl.Edf Pysatl.Exponent

theorem sumsq_nonneg' (f : ℝ → ℝ) (l : List ℝ) : 0 ≤ (l.map fun x => f x ^ 2).sum :=
  List.sum_nonneg (by simp only [List.mem_map]; rintro _ ⟨x, _, rfl⟩; positivity)

theorem list_cauchy (f g : ℝ → ℝ) : ∀ a b : List ℝ,
    (List.zipWith (fun x y => f x * g y) a b).sum ^ 2 ≤
      (a.map fun x => f x ^ 2).sum * (b.map fun x => g x ^ 2).sum
  | [], b => by simp
  | a, [] => by simp
  | x :: a, y :: b => by
    have ih := list_cauchy f g a b
    have hA := sumsq_nonneg' f a
    have hB := sumsq_nonneg' g b
    simp only [List.zipWith_cons_cons, List.sum_cons, List.map_cons]
    set S := (List.zipWith (fun x y => f x * g y) a b).sum
    set A := (a.map fun x => f x ^ 2).sum
    set B := (b.map fun x => g x ^ 2).sum
    have h : 2 * (f x * g y) * S ≤ f x ^ 2 * B + g y ^ 2 * A := by
      refine le_of_abs_le (abs_le_of_sq_le_sq ?_ (by positivity))
      have h1 : (2 * (f x * g y) * S) ^ 2 ≤ 4 * (f x * g y) ^ 2 * (A * B) := by nlinarith [sq_nonneg (f x * g y)]
      nlinarith [sq_nonneg (f x ^ 2 * B - g y ^ 2 * A)]
    nlinarith

theorem sum_zipWith_sub (f g : ℝ → ℝ) (c : ℝ) : ∀ a b : List ℝ, a.length = b.length →
    (List.zipWith (fun x y => (f x - c * g y) ^ 2) a b).sum =
      (a.map fun x => f x ^ 2).sum - 2 * c * (List.zipWith (fun x y => f x * g y) a b).sum +
        c ^ 2 * (b.map fun x => g x ^ 2).sum
  | [], [], _ => by simp
  | x :: a, y :: b, h => by
    simp only [List.zipWith_cons_cons, List.sum_cons, List.map_cons,
      sum_zipWith_sub f g c a b (by simpa using h)]
    ring
  | [], _ :: _, h => by simp at h
  | _ :: _, [], h => by simp at h

theorem zipWith_sq_zero (u : ℝ → ℝ → ℝ) : ∀ a b : List ℝ, a.length = b.length →
    (List.zipWith (fun x y => u x y ^ 2) a b).sum = 0 → List.Forall₂ (fun x y => u x y = 0) a b
  | [], [], _, _ => .nil
  | x :: a, y :: b, h, h0 => by
    have hnn : 0 ≤ (List.zipWith (fun x y => u x y ^ 2) a b).sum := by
      refine List.sum_nonneg fun z hz => ?_
      rw [List.zipWith_eq_zipWith_take_min, ← List.map_uncurry_zip_eq_zipWith] at hz
      obtain ⟨p, _, rfl⟩ := List.mem_map.1 hz
      exact sq_nonneg _
    simp only [List.zipWith_cons_cons, List.sum_cons] at h0
    have h1 : u x y ^ 2 = 0 := by nlinarith [sq_nonneg (u x y)]
    exact .cons (pow_eq_zero_iff two_ne_zero |>.1 h1)
      (zipWith_sq_zero u a b (by simpa using h) (by nlinarith [sq_nonneg (u x y)]))
  | [], _ :: _, h, _ => by simp at h
  | _ :: _, [], h, _ => by simp at h

/-- The sum of the products of the deviations from the means. -/
noncomputable def devSum (a b : List ℝ) : ℝ :=
  (List.zipWith (fun x y => (x - mean a) * (y - mean b)) a b).sum

/-- The sum of the squared deviations from the mean. -/
noncomputable def devSq (a : List ℝ) : ℝ := (a.map fun x => (x - mean a) ^ 2).sum

theorem devSq_nonneg (a : List ℝ) : 0 ≤ devSq a := sumsq_nonneg' _ a

theorem devSum_sq_le (a b : List ℝ) : devSum a b ^ 2 ≤ devSq a * devSq b :=
  list_cauchy (fun x => x - mean a) (fun x => x - mean b) a b

theorem devSum_self (a : List ℝ) : devSum a a = devSq a := by
  unfold devSum devSq
  generalize mean a = m
  induction a with
  | nil => rfl
  | cons x a ih => simp only [List.zipWith_cons_cons, List.sum_cons, List.map_cons, ih]; ring

theorem abs_devSum_le (a b : List ℝ) : |devSum a b| ≤ √(devSq a * devSq b) := by
  rw [← Real.sqrt_sq_eq_abs]
  exact Real.sqrt_le_sqrt (devSum_sq_le a b)

theorem devSq_aff (c d : ℝ) {a : List ℝ} (h : a ≠ []) : devSq (a.map (aff c d)) = d ^ 2 * devSq a :=
  sumsq_aff c d h

theorem devSum_aff (c d : ℝ) {a : List ℝ} (h : a ≠ []) (b : List ℝ) :
    devSum (a.map (aff c d)) b = d * devSum a b := by
  unfold devSum
  rw [mean_aff c d h]
  generalize mean a = m
  generalize mean b = m'
  clear h
  induction a generalizing b with
  | nil => simp
  | cons x a ih =>
    cases b with
    | nil => simp
    | cons y b =>
      simp only [List.map_cons, List.zipWith_cons_cons, List.sum_cons, ih]
      simp only [aff]
      ring

theorem devSum_comm (a b : List ℝ) : devSum a b = devSum b a := by
  unfold devSum
  generalize mean a = m
  generalize mean b = m'
  induction a generalizing b with
  | nil => simp
  | cons x a ih =>
    cases b with
    | nil => simp
    | cons y b => simp only [List.zipWith_cons_cons, List.sum_cons, ih, mul_comm]

/-- The two lists are exactly correlated only if one is an increasing affine function of the
other. -/
theorem exists_aff_of_devSum {a b : List ℝ} (hl : a.length = b.length) (hb : 0 < devSq b)
    (ha : 0 < devSq a) (h : devSum a b = √(devSq a * devSq b)) :
    ∃ c d, 0 < d ∧ a = b.map (aff c d) := by
  have hd : 0 < √(devSq a) / √(devSq b) := by
    have := Real.sqrt_pos.2 ha
    have := Real.sqrt_pos.2 hb
    positivity
  refine ⟨mean a - √(devSq a) / √(devSq b) * mean b, √(devSq a) / √(devSq b), hd, ?_⟩
  set d := √(devSq a) / √(devSq b) with hdd
  have h1 := sum_zipWith_sub (fun x => x - mean a) (fun x => x - mean b) d a b hl
  have h2 : (List.zipWith (fun x y => ((x - mean a) - d * (y - mean b)) ^ 2) a b).sum = 0 := by
    rw [h1]
    change devSq a - 2 * d * devSum a b + d ^ 2 * devSq b = 0
    rw [h, Real.sqrt_mul ha.le, hdd]
    have e1 := Real.sq_sqrt ha.le
    have e2 := Real.sq_sqrt hb.le
    have := (Real.sqrt_pos.2 hb).ne'
    field_simp
    nlinarith
  have h3 := zipWith_sq_zero (fun x y => (x - mean a) - d * (y - mean b)) a b hl h2
  clear_value d
  generalize mean a = m at *
  generalize mean b = m' at *
  clear h h1 h2 ha hb hl hd hdd
  induction h3 with
  | nil => rfl
  | cons hxy _ ih =>
    rw [List.map_cons, ← ih]
    congr 1
    simp only [aff]
    linarith

end Pysatl.Normal
