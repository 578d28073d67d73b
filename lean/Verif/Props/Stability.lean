import Verif.Props.Edf
import Verif.Lemmas.EdfDeviation
import Verif.Lemmas.Medcouple
import Verif.Spec.Stability

/-!
# C146: how far a few observations move a distance between distribution functions
-/

namespace Pysatl.Props

open Pysatl.Decision Pysatl.Graph Pysatl.Spec Pysatl.Edf MeasureTheory

/-- A bound for one replaced observation gives a bound for several. -/
theorem moved_of_one {f : List ℝ → ℝ} {n : ℕ} {c : ℝ}
    (h : ∀ (pre post : List ℝ) (a b : ℝ), (pre ++ a :: post).length = n →
      |f (pre ++ a :: post) - f (pre ++ b :: post)| ≤ c) :
    ∀ (xs ys pre : List ℝ), xs.length = ys.length → (pre ++ xs).length = n →
      |f (pre ++ xs) - f (pre ++ ys)| ≤ differing xs ys * c := by
  intro xs
  induction xs with
  | nil =>
    intro ys pre hl hn
    have : ys = [] := List.eq_nil_of_length_eq_zero (by simpa using hl.symm)
    subst this
    simp [differing]
  | cons a xs ih =>
    intro ys pre hl hn
    match ys, hl with
    | b :: ys, hl =>
      have hl' : xs.length = ys.length := by simpa using hl
      have e1 : pre ++ b :: xs = (pre ++ [b]) ++ xs := by simp
      have e2 : pre ++ b :: ys = (pre ++ [b]) ++ ys := by simp
      have h2 := ih ys (pre ++ [b]) hl' (by simpa [Nat.add_assoc, Nat.add_comm, Nat.add_left_comm] using hn)
      rw [← e1, ← e2] at h2
      by_cases hab : a = b
      · subst hab
        have : differing (a :: xs) (a :: ys) = differing xs ys := by simp [differing]
        rw [this]; exact h2
      · have : differing (a :: xs) (b :: ys) = differing xs ys + 1 := by
          simp [differing, hab]
        rw [this]
        have h1 := h pre xs a b hn
        push_cast
        calc |f (pre ++ a :: xs) - f (pre ++ b :: ys)|
            ≤ |f (pre ++ a :: xs) - f (pre ++ b :: xs)| + |f (pre ++ b :: xs) - f (pre ++ b :: ys)| :=
              abs_sub_le _ _ _
          _ ≤ _ := by linarith

/-- Moving one observation up takes at most its share away from the fraction below any point. -/
theorem fracLe_replace {pre post : List ℝ} {a b : ℝ} (hab : a ≤ b) (x : ℝ) :
    fracLe (pre ++ b :: post) x ≤ fracLe (pre ++ a :: post) x ∧
    fracLe (pre ++ a :: post) x ≤ fracLe (pre ++ b :: post) x + 1 / (pre ++ a :: post).length := by
  rw [fracLe_eq, fracLe_eq]
  have hl : (pre ++ b :: post).length = (pre ++ a :: post).length := by simp
  rw [hl]
  have hn : (0 : ℝ) < (pre ++ a :: post).length := by
    have : 0 < (pre ++ a :: post).length := by simp
    exact_mod_cast this
  rw [← add_div, div_le_div_iff_of_pos_right hn, div_le_div_iff_of_pos_right hn]
  rw [List.countP_append, List.countP_append, List.countP_cons, List.countP_cons]
  by_cases h1 : b ≤ x
  · have h2 : a ≤ x := hab.trans h1
    simp [h1, h2]
  · by_cases h2 : a ≤ x
    · simp [h1, h2, add_assoc]
    · simp [h1, h2]

section

variable {F : ℝ → ℝ} (hc : Continuous F) (hm : Monotone F) (h01 : ∀ x, 0 ≤ F x ∧ F x ≤ 1)
include hc hm h01

/-- The three Kolmogorov-Smirnov statistics when one observation moves up. -/
theorem ks_move_up {pre post : List ℝ} {a b : ℝ} (hab : a ≤ b) :
    ∃ d p m d' p' m', ksOf .twoTailed F (pre ++ a :: post) = .ok d ∧
      ksOf .right F (pre ++ a :: post) = .ok p ∧ ksOf .left F (pre ++ a :: post) = .ok m ∧
      ksOf .twoTailed F (pre ++ b :: post) = .ok d' ∧
      ksOf .right F (pre ++ b :: post) = .ok p' ∧ ksOf .left F (pre ++ b :: post) = .ok m' ∧
      |d - d'| ≤ 1 / (pre ++ a :: post).length ∧
      p' ≤ p ∧ p ≤ p' + 1 / (pre ++ a :: post).length ∧
      m ≤ m' ∧ m' ≤ m + 1 / (pre ++ a :: post).length := by
  obtain ⟨d, p, m, e1, e2, e3, l1, l2, l3, -⟩ := C55_sup_distance hc hm h01
    (rvs := pre ++ a :: post) (by simp)
  obtain ⟨d', p', m', e1', e2', e3', l1', l2', l3', -⟩ := C55_sup_distance hc hm h01
    (rvs := pre ++ b :: post) (by simp)
  have key := fun x => fracLe_replace (pre := pre) (post := post) hab x
  refine ⟨d, p, m, d', p', m', e1, e2, e3, e1', e2', e3', ?_, ?_, ?_, ?_, ?_⟩
  · rw [abs_sub_le_iff]
    constructor
    · rw [sub_le_iff_le_add']
      refine l1.2 ?_
      rintro _ ⟨x, rfl⟩
      have := l1'.1 ⟨x, rfl⟩
      simp only at this ⊢
      obtain ⟨k1, k2⟩ := key x
      rw [abs_le] at this ⊢
      constructor <;> linarith
    · rw [sub_le_iff_le_add']
      refine l1'.2 ?_
      rintro _ ⟨x, rfl⟩
      have := l1.1 ⟨x, rfl⟩
      simp only at this ⊢
      obtain ⟨k1, k2⟩ := key x
      rw [abs_le] at this ⊢
      constructor <;> linarith
  · refine l2'.2 ?_
    rintro _ ⟨x, rfl⟩
    have := l2.1 ⟨x, rfl⟩
    simp only at this ⊢
    linarith [key x]
  · refine l2.2 ?_
    rintro _ ⟨x, rfl⟩
    have := l2'.1 ⟨x, rfl⟩
    simp only at this ⊢
    linarith [key x]
  · refine l3.2 ?_
    rintro _ ⟨x, rfl⟩
    have := l3'.1 ⟨x, rfl⟩
    simp only at this ⊢
    linarith [key x]
  · refine l3'.2 ?_
    rintro _ ⟨x, rfl⟩
    have := l3.1 ⟨x, rfl⟩
    simp only at this ⊢
    linarith [key x]

/-- **C146.** Two samples of `n` observations that differ in `k` places have Kolmogorov-Smirnov
statistics at most `k / n` apart, whatever the other values are: two-tailed, right and left. -/
theorem C146_ks (t : AlternativeType) {xs ys : List ℝ} (hne : xs ≠ []) (hl : xs.length = ys.length) :
    ∃ d d', ksOf t F xs = .ok d ∧ ksOf t F ys = .ok d' ∧
      |d - d'| ≤ differing xs ys / xs.length := by
  have ex : ∀ zs : List ℝ, zs ≠ [] → ∃ d, ksOf t F zs = .ok d := by
    intro zs hz
    obtain ⟨d, p, m, e1, e2, e3, -⟩ := C55_sup_distance hc hm h01 hz
    cases t
    · exact ⟨_, e2⟩
    · exact ⟨_, e3⟩
    · exact ⟨_, e1⟩
  have one : ∀ (pre post : List ℝ) (a b : ℝ), (pre ++ a :: post).length = xs.length →
      |((ksOf t F (pre ++ a :: post)).toOption.getD 0) - ((ksOf t F (pre ++ b :: post)).toOption.getD 0)|
        ≤ 1 / xs.length := by
    have up : ∀ (pre post : List ℝ) (a b : ℝ), a ≤ b → (pre ++ a :: post).length = xs.length →
      |((ksOf t F (pre ++ a :: post)).toOption.getD 0) - ((ksOf t F (pre ++ b :: post)).toOption.getD 0)|
        ≤ 1 / xs.length := by
      intro pre post a b hab hn
      obtain ⟨d, p, m, d', p', m', e1, e2, e3, e1', e2', e3', k⟩ :=
        ks_move_up hc hm h01 (pre := pre) (post := post) hab
      rw [hn] at k
      cases t
      · rw [e2, e2']
        show |p - p'| ≤ _
        rw [abs_le]; constructor <;> linarith [k.2.1, k.2.2.1]
      · rw [e3, e3']
        show |m - m'| ≤ _
        rw [abs_le]; constructor <;> linarith [k.2.2.2.1, k.2.2.2.2]
      · rw [e1, e1']; exact k.1
    intro pre post a b hn
    rcases le_total a b with h | h
    · exact up pre post a b h hn
    · rw [abs_sub_comm]; exact up pre post b a h (by simpa using hn)
  obtain ⟨d, hd⟩ := ex xs hne
  obtain ⟨d', hd'⟩ := ex ys (by rw [← List.length_pos_iff, ← hl]; exact List.length_pos_iff.2 hne)
  have := moved_of_one (f := fun zs => (ksOf t F zs).toOption.getD 0) (n := xs.length) one xs ys [] hl rfl
  simp only [List.nil_append] at this
  rw [hd, hd', mul_one_div] at this
  exact ⟨d, d', hd, hd', this⟩

/-- **C146.** The same for the Kuiper statistic, although it adds two distances. -/
theorem C146_kuiper {xs ys : List ℝ} (hne : xs ≠ []) (hl : xs.length = ys.length) :
    ∃ v v', kuiperOf F xs = .ok v ∧ kuiperOf F ys = .ok v' ∧
      |v - v'| ≤ differing xs ys / xs.length := by
  have ex : ∀ zs : List ℝ, zs ≠ [] → ∃ v p m, kuiperOf F zs = .ok v ∧ ksOf .right F zs = .ok p ∧
      ksOf .left F zs = .ok m ∧ v = p + m := by
    intro zs hz
    obtain ⟨v, d, p, m, e, -, e1, e2, e3, -⟩ := C58_kuiper hm h01 hz
    exact ⟨v, p, m, e, e1, e2, e3⟩
  have one : ∀ (pre post : List ℝ) (a b : ℝ), (pre ++ a :: post).length = xs.length →
      |((kuiperOf F (pre ++ a :: post)).toOption.getD 0) - ((kuiperOf F (pre ++ b :: post)).toOption.getD 0)|
        ≤ 1 / xs.length := by
    have up : ∀ (pre post : List ℝ) (a b : ℝ), a ≤ b → (pre ++ a :: post).length = xs.length →
      |((kuiperOf F (pre ++ a :: post)).toOption.getD 0) - ((kuiperOf F (pre ++ b :: post)).toOption.getD 0)|
        ≤ 1 / xs.length := by
      intro pre post a b hab hn
      obtain ⟨d, p, m, d', p', m', e1, e2, e3, e1', e2', e3', k⟩ :=
        ks_move_up hc hm h01 (pre := pre) (post := post) hab
      rw [hn] at k
      obtain ⟨v, q, r, f1, f2, f3, f4⟩ := ex (pre ++ a :: post) (by simp)
      obtain ⟨v', q', r', f1', f2', f3', f4'⟩ := ex (pre ++ b :: post) (by simp)
      obtain rfl : q = p := by rw [e2] at f2; cases f2; rfl
      obtain rfl : r = m := by rw [e3] at f3; cases f3; rfl
      obtain rfl : q' = p' := by rw [e2'] at f2'; cases f2'; rfl
      obtain rfl : r' = m' := by rw [e3'] at f3'; cases f3'; rfl
      rw [f1, f1']
      show |v - v'| ≤ _
      rw [f4, f4', abs_le]
      obtain ⟨-, k1, k2, k3, k4⟩ := k
      constructor <;> linarith
    intro pre post a b hn
    rcases le_total a b with h | h
    · exact up pre post a b h hn
    · rw [abs_sub_comm]; exact up pre post b a h (by simpa using hn)
  obtain ⟨d, -, -, hd, -⟩ := ex xs hne
  obtain ⟨d', -, -, hd', -⟩ := ex ys (by rw [← List.length_pos_iff, ← hl]; exact List.length_pos_iff.2 hne)
  have := moved_of_one (f := fun zs => (kuiperOf F zs).toOption.getD 0) (n := xs.length) one xs ys [] hl rfl
  simp only [List.nil_append] at this
  rw [hd, hd', mul_one_div] at this
  exact ⟨d, d', hd, hd', this⟩

end

/-! ### Cramer-von Mises -/

/-- A function bounded above by `g` between `u` and `w`, and by zero elsewhere in `[0,1]`. -/
theorem integral_le_middle {D g : ℝ → ℝ} (hD : IntervalIntegrable D volume 0 1) (hg : Continuous g) {u w : ℝ}
    (h0 : 0 ≤ u) (huw : u ≤ w) (h1 : w ≤ 1) (hu : ∀ x, x < u → D x ≤ 0) (hw : ∀ x, w < x → D x ≤ 0)
    (hm : ∀ x, u < x → x < w → D x ≤ g x) : ∫ x in (0 : ℝ)..1, D x ≤ ∫ x in u..w, g x := by
  have i1 : IntervalIntegrable D volume 0 u := hD.mono_set (by
    rw [Set.uIcc_of_le h0, Set.uIcc_of_le zero_le_one]; exact Set.Icc_subset_Icc le_rfl (huw.trans h1))
  have i2 : IntervalIntegrable D volume u w := hD.mono_set (by
    rw [Set.uIcc_of_le huw, Set.uIcc_of_le zero_le_one]; exact Set.Icc_subset_Icc h0 h1)
  have i3 : IntervalIntegrable D volume w 1 := hD.mono_set (by
    rw [Set.uIcc_of_le h1, Set.uIcc_of_le zero_le_one]; exact Set.Icc_subset_Icc (h0.trans huw) le_rfl)
  rw [← intervalIntegral.integral_add_adjacent_intervals (i1.trans i2) i3,
    ← intervalIntegral.integral_add_adjacent_intervals i1 i2]
  have e1 : ∫ x in (0 : ℝ)..u, D x ≤ 0 := by
    have := intervalIntegral.integral_mono_on_of_le_Ioo h0 i1
      (intervalIntegrable_const (c := (0 : ℝ))) fun x hx => hu x hx.2
    simpa using this
  have e3 : ∫ x in w..1, D x ≤ 0 := by
    have := intervalIntegral.integral_mono_on_of_le_Ioo h1 i3
      (intervalIntegrable_const (c := (0 : ℝ))) fun x hx => hw x hx.1
    simpa using this
  have e2 := intervalIntegral.integral_mono_on_of_le_Ioo huw i2 (hg.intervalIntegrable u w)
    fun x hx => hm x hx.1 hx.2
  linarith

theorem integral_affine (u w c : ℝ) : ∫ x in u..w, (2 * c - 2 * x) = (u - c) ^ 2 - (w - c) ^ 2 := by
  rw [intervalIntegral.integral_sub (by simp)
    ((by fun_prop : Continuous fun x : ℝ => 2 * x).intervalIntegrable u w), intervalIntegral.integral_const,
    intervalIntegral.integral_const_mul, integral_id]
  simp only [smul_eq_mul]
  ring

section

variable {F : ℝ → ℝ} (hm : Monotone F) (h01 : ∀ x, 0 ≤ F x ∧ F x ≤ 1)
include hm h01

/-- The Cramer-von Mises statistic when one observation moves up. -/
theorem cvm_move_up {pre post : List ℝ} {a b : ℝ} (hab : a ≤ b) :
    |cvmOf F (pre ++ a :: post) - cvmOf F (pre ++ b :: post)| ≤
      (1 - 1 / (2 * (pre ++ a :: post).length)) ^ 2 := by
  have hl : (pre ++ b :: post).length = (pre ++ a :: post).length := by simp
  have hn1 : (1 : ℝ) ≤ (pre ++ a :: post).length := by
    have : 1 ≤ (pre ++ a :: post).length := by simp; omega
    exact_mod_cast this
  rw [C56_integral hm h01 (by simp), C56_integral hm h01 (by simp), hl, ← mul_sub]
  have iA := (deviation_sample hm h01 (rvs := pre ++ a :: post) (x₀ := 0) le_rfl (abs_nonneg _) 0).1
  have iB := (deviation_sample hm h01 (rvs := pre ++ b :: post) (x₀ := 0) le_rfl (abs_nonneg _) 0).1
  simp only [sub_zero] at iA iB
  rw [← intervalIntegral.integral_sub iA iB]
  have eA : (pre ++ a :: post).map F = pre.map F ++ F a :: post.map F := by simp
  have eB : (pre ++ b :: post).map F = pre.map F ++ F b :: post.map F := by simp
  rw [eA] at iA ⊢
  rw [eB] at iB ⊢
  have hu := hm hab
  have hlen : (pre.map F ++ F a :: post.map F).length = (pre ++ a :: post).length := by simp
  have key := fun x => fracLe_replace (pre := pre.map F) (post := post.map F) hu x
  have out : ∀ x, (x < F a ∨ F b ≤ x) →
      fracLe (pre.map F ++ F a :: post.map F) x = fracLe (pre.map F ++ F b :: post.map F) x := by
    intro x hx
    rw [fracLe_eq, fracLe_eq, List.countP_append, List.countP_append, List.countP_cons, List.countP_cons]
    rcases hx with hx | hx
    · simp [not_le.2 hx, not_le.2 (hx.trans_le hu)]
    · simp [hx, hu.trans hx]
  have mid : ∀ x, F a ≤ x → x < F b → fracLe (pre.map F ++ F a :: post.map F) x =
      fracLe (pre.map F ++ F b :: post.map F) x + 1 / (pre ++ a :: post).length := by
    intro x h1 h2
    rw [fracLe_eq, fracLe_eq, List.countP_append, List.countP_append, List.countP_cons, List.countP_cons]
    simp only [h1, not_le.2 h2, decide_true, decide_false, if_true, List.length_append,
      List.length_cons, List.length_map]
    simp
    ring
  rw [hlen] at key
  generalize hN : ((pre ++ a :: post).length : ℝ) = N at *
  have hN0 : 0 < N := by linarith
  have hbA := fun x => fracLe_unit (pre.map F ++ F a :: post.map F) x
  have hbB := fun x => fracLe_unit (pre.map F ++ F b :: post.map F) x
  generalize fracLe (pre.map F ++ F a :: post.map F) = A at *
  generalize fracLe (pre.map F ++ F b :: post.map F) = B at *
  set e := 1 / (2 * N) with he
  have he2 : 1 / N = 2 * e := by rw [he]; field_simp
  have he0 : 0 < e := by positivity
  have heh : e ≤ 1 / 2 := by
    rw [he, div_le_div_iff₀ (by positivity) (by norm_num)]; linarith
  rw [he2] at mid
  have hup : ∫ x in (0 : ℝ)..1, ((A x - x) ^ 2 - (B x - x) ^ 2) ≤ ∫ x in F a..F b, 2 * e * (2 * (1 - e) - 2 * x) := by
    refine integral_le_middle (iA.sub iB) (by fun_prop) (h01 a).1 hu (h01 b).2 ?_ ?_ ?_
    · intro x hx; rw [out x (Or.inl hx)]; simp
    · intro x hx; rw [out x (Or.inr hx.le)]; simp
    · intro x h1 h2
      have := mid x h1.le h2
      have h3 := (hbA x).2
      rw [this] at h3 ⊢
      nlinarith
  have hlo : ∫ x in (0 : ℝ)..1, -((A x - x) ^ 2 - (B x - x) ^ 2) ≤ ∫ x in F a..F b, -(2 * e) * (2 * e - 2 * x) := by
    refine integral_le_middle (iA.sub iB).neg (by fun_prop) (h01 a).1 hu (h01 b).2 ?_ ?_ ?_
    · intro x hx; show -((A x - x) ^ 2 - (B x - x) ^ 2) ≤ 0; rw [out x (Or.inl hx)]; simp
    · intro x hx; show -((A x - x) ^ 2 - (B x - x) ^ 2) ≤ 0; rw [out x (Or.inr hx.le)]; simp
    · intro x h1 h2
      have := mid x h1.le h2
      have h3 := (hbB x).1
      show -((A x - x) ^ 2 - (B x - x) ^ 2) ≤ -(2 * e) * (2 * e - 2 * x)
      rw [this]
      nlinarith
  rw [intervalIntegral.integral_const_mul, integral_affine] at hup hlo
  rw [intervalIntegral.integral_neg] at hlo
  generalize ∫ x in (0 : ℝ)..1, ((A x - x) ^ 2 - (B x - x) ^ 2) = I at *
  have hNe : N * (2 * e) = 1 := by rw [← he2]; field_simp
  have q1 : N * I ≤ (F a - (1 - e)) ^ 2 - (F b - (1 - e)) ^ 2 := by
    calc N * I ≤ N * (2 * e * ((F a - (1 - e)) ^ 2 - (F b - (1 - e)) ^ 2)) :=
          mul_le_mul_of_nonneg_left hup hN0.le
      _ = _ := by rw [← mul_assoc, hNe, one_mul]
  have q2 : N * -I ≤ -((F a - e) ^ 2 - (F b - e) ^ 2) := by
    calc N * -I ≤ N * (-(2 * e) * ((F a - e) ^ 2 - (F b - e) ^ 2)) :=
          mul_le_mul_of_nonneg_left hlo hN0.le
      _ = -(N * (2 * e) * ((F a - e) ^ 2 - (F b - e) ^ 2)) := by ring
      _ = _ := by rw [hNe, one_mul]
  have ha := h01 a
  have hb := h01 b
  rw [abs_le]
  have r1 : 0 ≤ F a * (2 * (1 - e) - F a) := mul_nonneg ha.1 (by linarith)
  have r2 : 0 ≤ (1 - F b) * (1 - 2 * e + F b) := mul_nonneg (by linarith) (by linarith)
  have s1 := sq_nonneg (F b - (1 - e))
  have s2 := sq_nonneg (F a - e)
  constructor
  · have : (1 - e) ^ 2 - (F b - e) ^ 2 = (1 - F b) * (1 - 2 * e + F b) := by ring
    linarith
  · have : (1 - e) ^ 2 - (F a - (1 - e)) ^ 2 = F a * (2 * (1 - e) - F a) := by ring
    linarith

/-- **C146.** Replacing `k` of `n` observations moves the Cramer-von Mises statistic by at most
`k (1 - 1/(2n))²`. -/
theorem C146_cvm {xs ys : List ℝ} (hl : xs.length = ys.length) :
    |cvmOf F xs - cvmOf F ys| ≤ differing xs ys * (1 - 1 / (2 * xs.length)) ^ 2 := by
  refine moved_of_one (f := cvmOf F) (n := xs.length) ?_ xs ys [] hl rfl
  intro pre post a b hn
  rcases le_total a b with h | h
  · have := cvm_move_up hm h01 (pre := pre) (post := post) h
    rwa [hn] at this
  · have := cvm_move_up hm h01 (pre := pre) (post := post) h
    rw [abs_sub_comm]
    have e : (pre ++ b :: post).length = xs.length := by rw [← hn]; simp
    rwa [e] at this

end

/-! ### Errors of measurement -/

theorem cvm_range (vals : List ℝ) : cvm vals = 1 / (12 * vals.length) +
    ∑ i ∈ Finset.range vals.length, ((2 * ((i : ℝ) + 1) - 1) / (2 * vals.length) - vals.getD i 0) ^ 2 := by
  unfold cvm
  rw [sum_mapIdx, ← Fin.sum_univ_eq_sum_range
    (fun i => ((2 * ((i : ℝ) + 1) - 1) / (2 * vals.length) - vals.getD i 0) ^ 2)]
  congr 1
  refine Finset.sum_congr rfl fun i _ => ?_
  rw [List.getD_eq_getElem _ _ i.2]
  rfl

theorem root_near {n : ℕ} {e ε : ℝ} (he : 0 ≤ e) (hε : 0 ≤ ε) {c u v : ℕ → ℝ} (h : ∀ i < n, |u i - v i| ≤ ε) :
    √(e + ∑ i ∈ Finset.range n, (c i - u i) ^ 2) ≤
      √(e + ∑ i ∈ Finset.range n, (c i - v i) ^ 2) + √n * ε := by
  have hS : 0 ≤ ∑ i ∈ Finset.range n, (c i - v i) ^ 2 := Finset.sum_nonneg fun i _ => sq_nonneg _
  have h1 : ∑ i ∈ Finset.range n, (c i - u i) ^ 2 ≤
      ∑ i ∈ Finset.range n, (c i - v i) ^ 2 + 2 * ε * ∑ i ∈ Finset.range n, |c i - v i| + n * ε ^ 2 := by
    have : (n : ℝ) * ε ^ 2 = ∑ i ∈ Finset.range n, ε ^ 2 := by simp
    rw [this, Finset.mul_sum, ← Finset.sum_add_distrib, ← Finset.sum_add_distrib]
    refine Finset.sum_le_sum fun i hi => ?_
    have hd := h i (Finset.mem_range.1 hi)
    have e1 : c i - u i = (c i - v i) - (u i - v i) := by ring
    have h2 : |c i - u i| ≤ |c i - v i| + ε := by
      rw [e1]; exact (abs_sub _ _).trans (by linarith)
    have h3 := pow_le_pow_left₀ (abs_nonneg _) h2 2
    rw [sq_abs] at h3
    have h4 := sq_abs (c i - v i)
    nlinarith
  have h2 : ∑ i ∈ Finset.range n, |c i - v i| ≤ √n * √(e + ∑ i ∈ Finset.range n, (c i - v i) ^ 2) := by
    rw [← Real.sqrt_mul (Nat.cast_nonneg n)]
    refine Real.le_sqrt_of_sq_le ?_
    have := sq_sum_le_card_mul_sum_sq (s := Finset.range n) (f := fun i => |c i - v i|)
    simp only [sq_abs, Finset.card_range] at this
    refine this.trans (mul_le_mul_of_nonneg_left (by linarith) (Nat.cast_nonneg n))
  have h5 : (√(e + ∑ i ∈ Finset.range n, (c i - v i) ^ 2)) ^ 2 = e + ∑ i ∈ Finset.range n, (c i - v i) ^ 2 :=
    Real.sq_sqrt (by positivity)
  have h6 : (√(n : ℝ)) ^ 2 = n := Real.sq_sqrt (Nat.cast_nonneg n)
  refine Real.sqrt_le_iff.2 ⟨by positivity, ?_⟩
  generalize √(e + ∑ i ∈ Finset.range n, (c i - v i) ^ 2) = W at *
  generalize √(n : ℝ) = r at *
  have h7 := mul_le_mul_of_nonneg_left h2 hε
  have : (W + r * ε) ^ 2 = W ^ 2 + 2 * (ε * (r * W)) + r ^ 2 * ε ^ 2 := by ring
  rw [this, h5, h6]
  linarith

section

variable {F : ℝ → ℝ} (hm : Monotone F)
include hm

/-- Sorting does not enlarge differences. -/
theorem sorted_near {ε : ℝ} {xs ys : List ℝ} (h : List.Forall₂ (fun x y => F y ≤ F x + ε) xs ys) {i : ℕ}
    (hi : i < ((sort xs).map F).length) (hi' : i < ((sort ys).map F).length) :
    ((sort ys).map F)[i] ≤ ((sort xs).map F)[i] + ε := by
  have e : sort (ys.map F) = (sort ys).map F := by
    refine List.Perm.eq_of_pairwise (le := (· ≤ ·)) (fun a b _ _ h1 h2 => le_antisymm h1 h2)
      (sort_pairwise _) (map_sorted hm ys) ((sort_perm _).trans ((sort_perm ys).map F).symm)
  have c1 := countP_ge_of_le (map_sorted hm xs) hi (le_refl _)
  have c2 : ((sort xs).map F).countP (fun y => decide (y ≤ ((sort xs).map F)[i])) ≤
      (ys.map F).countP (fun y => decide (y ≤ ((sort xs).map F)[i] + ε)) := by
    rw [((sort_perm xs).map F).countP_eq]
    generalize ((sort xs).map F)[i] = v
    clear c1 e hi hi'
    induction h with
    | nil => simp
    | cons hxy _ ih =>
      simp only [List.map_cons, List.countP_cons]
      refine add_le_add ih ?_
      split_ifs with h1 h2 <;> simp_all
      linarith
  have := Medcouple.sort_getD_le (lt_of_lt_of_le (Nat.lt_of_succ_le c1) c2)
  rw [e, List.getD_eq_getElem _ _ hi'] at this
  exact this

theorem sorted_both {ε : ℝ} {xs ys : List ℝ} (h : List.Forall₂ (fun x y => |F x - F y| ≤ ε) xs ys) (i : ℕ)
    (hi : i < xs.length) : |((sort xs).map F).getD i 0 - ((sort ys).map F).getD i 0| ≤ ε := by
  have hl := h.length_eq
  have lx : i < ((sort xs).map F).length := by rwa [List.length_map, (sort_perm xs).length_eq]
  have ly : i < ((sort ys).map F).length := by rwa [List.length_map, (sort_perm ys).length_eq, ← hl]
  have k1 := sorted_near hm (h.imp fun a b hab => by linarith [(abs_le.1 hab).1]) lx ly
  have k2 := sorted_near hm (h.flip.imp fun a b hab => by
      have := (abs_le.1 hab).2
      linarith) ly lx
  rw [List.getD_eq_getElem _ _ lx, List.getD_eq_getElem _ _ ly, abs_le]
  constructor <;> linarith

/-- **C146.** If no observation is recorded so wrongly that its probability level moves by more than
`ε`, no Kolmogorov-Smirnov statistic moves by more than `ε`, and Kuiper's by no more than `2 ε`. -/
theorem C146_recorded {ε : ℝ} {xs ys : List ℝ} (hne : xs ≠ [])
    (h : List.Forall₂ (fun x y => |F x - F y| ≤ ε) xs ys) :
    (∀ t, ∃ d d', ksOf t F xs = .ok d ∧ ksOf t F ys = .ok d' ∧ |d - d'| ≤ ε) ∧
    ∃ v v', kuiperOf F xs = .ok v ∧ kuiperOf F ys = .ok v' ∧ |v - v'| ≤ 2 * ε := by
  have hl := h.length_eq
  have hne' : ys ≠ [] := by rw [← List.length_pos_iff, ← hl]; exact List.length_pos_iff.2 hne
  have lx : ((sort xs).map F).length = xs.length := by rw [List.length_map, (sort_perm xs).length_eq]
  have ly : ((sort ys).map F).length = xs.length := by
    rw [List.length_map, (sort_perm ys).length_eq, hl]
  have n1 : (sort xs).map F ≠ [] := by rw [← List.length_pos_iff, lx]; exact List.length_pos_iff.2 hne
  have n2 : (sort ys).map F ≠ [] := by rw [← List.length_pos_iff, ly]; exact List.length_pos_iff.2 hne
  have k1 : ∀ i (hi : i < ((sort xs).map F).length) (hi' : i < ((sort ys).map F).length),
      ((sort ys).map F)[i] ≤ ((sort xs).map F)[i] + ε := fun i hi hi' =>
    sorted_near hm (h.imp fun a b hab => by linarith [(abs_le.1 hab).1]) hi hi'
  have k2 : ∀ i (hi : i < ((sort xs).map F).length) (hi' : i < ((sort ys).map F).length),
      ((sort xs).map F)[i] ≤ ((sort ys).map F)[i] + ε := fun i hi hi' =>
    sorted_near hm (h.flip.imp fun a b hab => by
      have := (abs_le.1 hab).2
      linarith) hi' hi
  obtain ⟨p, hp⟩ := dPlus_exists n1
  obtain ⟨m, hmm⟩ := dMinus_exists n1
  obtain ⟨p', hp'⟩ := dPlus_exists n2
  obtain ⟨m', hmm'⟩ := dMinus_exists n2
  have ap : |p - p'| ≤ ε := by
    obtain ⟨⟨i, hi, e1⟩, u1⟩ := dPlus_eq_ok.1 hp
    obtain ⟨⟨j, hj, e2⟩, u2⟩ := dPlus_eq_ok.1 hp'
    have a1 := u1 j (by omega)
    have a2 := u2 i (by omega)
    have b1 := k1 i hi (by omega)
    have b2 := k2 j (by omega) hj
    have ll : (((sort xs).map F).length : ℝ) = ((sort ys).map F).length := by rw [lx, ly]
    rw [ll] at e1 a1
    rw [abs_le]; constructor <;> linarith
  have am : |m - m'| ≤ ε := by
    obtain ⟨⟨i, hi, e1⟩, u1⟩ := dMinus_eq_ok.1 hmm
    obtain ⟨⟨j, hj, e2⟩, u2⟩ := dMinus_eq_ok.1 hmm'
    have a1 := u1 j (by omega)
    have a2 := u2 i (by omega)
    have b1 := k2 i hi (by omega)
    have b2 := k1 j (by omega) hj
    have ll : (((sort xs).map F).length : ℝ) = ((sort ys).map F).length := by rw [lx, ly]
    rw [ll] at e1 a1
    rw [abs_le]; constructor <;> linarith
  refine ⟨fun t => ?_, p + m, p' + m', kuiper_eq hp hmm, kuiper_eq hp' hmm', ?_⟩
  · cases t
    · exact ⟨p, p', ks_right hp hmm, ks_right hp' hmm', ap⟩
    · exact ⟨m, m', ks_left hmm, ks_left hmm', am⟩
    · refine ⟨_, _, ks_two hp hmm, ks_two hp' hmm', ?_⟩
      exact (abs_max_sub_max_le_max p m p' m').trans (max_le ap am)
  · have : p + m - (p' + m') = (p - p') + (m - m') := by ring
    rw [this]
    exact (abs_add_le _ _).trans (by linarith)

/-- **C146.** The root of the Cramer-von Mises statistic moves by no more than `√n ε`. -/
theorem C146_recorded_cvm {ε : ℝ} {xs ys : List ℝ} (h : List.Forall₂ (fun x y => |F x - F y| ≤ ε) xs ys) :
    |√(cvmOf F xs) - √(cvmOf F ys)| ≤ √xs.length * ε := by
  have hl := h.length_eq
  have lx : ((sort xs).map F).length = xs.length := by rw [List.length_map, (sort_perm xs).length_eq]
  have ly : ((sort ys).map F).length = xs.length := by
    rw [List.length_map, (sort_perm ys).length_eq, hl]
  unfold cvmOf
  rw [cvm_range, cvm_range, lx, ly]
  rcases Nat.eq_zero_or_pos xs.length with h0 | h0
  · rw [h0]; simp
  have hε : 0 ≤ ε := (abs_nonneg _).trans (sorted_both hm h 0 h0)
  have he : (0 : ℝ) ≤ 1 / (12 * xs.length) := by positivity
  have a1 := root_near (n := xs.length) he hε
    (c := fun i : ℕ => (2 * ((i : ℝ) + 1) - 1) / (2 * xs.length)) fun i hi => sorted_both hm h i hi
  have a2 := root_near (n := xs.length) he hε
    (c := fun i : ℕ => (2 * ((i : ℝ) + 1) - 1) / (2 * xs.length))
    (u := fun i => ((sort ys).map F).getD i 0) (v := fun i => ((sort xs).map F).getD i 0) fun i hi => by
      rw [abs_sub_comm]; exact sorted_both hm h i hi
  rw [abs_le]
  constructor <;> linarith

end

/-! ### The hypotheses are met, and the bounds are attained -/

example : ∃ d d', ksOf .twoTailed unitCdf [0, 0, 1 / 2] = .ok d ∧
    ksOf .twoTailed unitCdf [0, 1, 1 / 2] = .ok d' ∧ |d - d'| ≤ 1 / 3 := by
  obtain ⟨d, d', h1, h2, h3⟩ := C146_ks unitCdf_continuous unitCdf_mono unitCdf_bounds .twoTailed
    (xs := [0, 0, 1 / 2]) (ys := [0, 1, 1 / 2]) (by simp) rfl
  refine ⟨d, d', h1, h2, ?_⟩
  simpa [differing] using h3

/-- Two observations at zero; one of them moves to the other end. -/
example : ks .twoTailed [(0 : ℚ), 0] = .ok 1 ∧ ks .twoTailed [(0 : ℚ), 1] = .ok (1 - 1 / 2) ∧
    ks .left [(1 : ℚ), 1] = .ok 1 ∧ ks .left [(0 : ℚ), 1] = .ok (1 - 1 / 2) ∧
    kuiper [(0 : ℚ), 0] = .ok 1 ∧ kuiper [(0 : ℚ), 1 / 2] = .ok (1 - 1 / 2) := by decide +kernel

example : cvm [(0 : ℚ), 0] - cvm [(0 : ℚ), 3 / 4] = (1 - 1 / (2 * 2)) ^ 2 := by decide +kernel

example : ∃ d d', ksOf .right unitCdf [1 / 4, 3 / 4] = .ok d ∧ ksOf .right unitCdf [0, 1] = .ok d' ∧
    |d - d'| ≤ 1 / 4 := by
  refine (C146_recorded unitCdf_mono (ε := 1 / 4) (xs := [1 / 4, 3 / 4]) (ys := [0, 1]) (by simp) ?_).1 .right
  refine .cons ?_ (.cons ?_ .nil) <;> norm_num [unitCdf]

example : |√(cvmOf unitCdf [1 / 4, 3 / 4]) - √(cvmOf unitCdf [0, 1])| ≤ √(2 : ℕ) * (1 / 4) := by
  refine C146_recorded_cvm unitCdf_mono (ε := 1 / 4) (xs := [1 / 4, 3 / 4]) (ys := [0, 1]) ?_
  refine .cons ?_ (.cons ?_ .nil) <;> norm_num [unitCdf]

end Pysatl.Props
