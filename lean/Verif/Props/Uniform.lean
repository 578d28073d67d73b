import Verif.Model.Uniform
import Verif.Lemmas.Normal
import Verif.Lemmas.Exponent
import Verif.Props.Edf
import Verif.Props.Divergence
import Verif.Props.Normal

/-! # C61, C64, C86, C87, C88 for the uniformity statistics -/

namespace Pysatl.Props

open Pysatl.Decision Pysatl.Graph Pysatl.Edf Pysatl.Exponent Pysatl.Normal Pysatl.Uniform

theorem validateUniform_error {a b : ℝ} {xs : List ℝ} (h : ∃ x ∈ xs, x < a ∨ b < x) :
    validateUniform a b xs = .error .valueError := by
  unfold validateUniform
  rw [if_pos]
  simpa using h

/-! ### C61 -/

theorem pairs_sum {α M : Type} [AddCommMonoid M] (g : α → α → M) : ∀ l : List α,
    ((pairs l).map fun p => g p.1 p.2).sum = pairSum g l
  | [] => rfl
  | x :: l => by
    rw [pairs, List.map_append, List.sum_append, pairs_sum g l, List.map_map, pairSum]
    rfl

theorem steinKernel_comm (x y : ℝ) : steinKernel x y = steinKernel y x := by
  unfold steinKernel
  rw [max_comm]; ring

theorem steinU_perm {xs ys : List ℝ} (h : xs.Perm ys) : steinU xs = steinU ys := by
  simp only [steinU, pairs_sum steinKernel, pairSum_perm steinKernel_comm h, h.length_eq]

theorem histogram_perm {xs ys : List ℝ} (h : xs.Perm ys) : ∀ e : List ℝ,
    histogram e xs = histogram e ys
  | [] => rfl
  | [_] => rfl
  | e :: e' :: es => by
    rw [histogram, histogram, histogram_perm h (e' :: es), h.countP_eq]

theorem numBins_perm {xs ys : List ℝ} (h : xs.Perm ys) (a b : ℝ) (k : Bins) :
    numBins a b xs k = numBins a b ys k := by
  cases k <;> simp only [numBins, h.length_eq, variance_perm h]

theorem standard_perm {xs ys : List ℝ} (h : xs.Perm ys) (a b : ℝ) :
    (standard a b xs).Perm (standard a b ys) := h.map _

theorem validateUniform_perm {xs ys : List ℝ} (h : xs.Perm ys) (a b : ℝ) :
    (validateUniform a b xs = .error .valueError ∧ validateUniform a b ys = .error .valueError) ∨
    (validateUniform a b xs = .ok xs ∧ validateUniform a b ys = .ok ys) := by
  by_cases hx : ∃ x ∈ xs, x < a ∨ b < x
  · obtain ⟨x, hm, hx⟩ := hx
    exact .inl ⟨validateUniform_error ⟨x, hm, hx⟩, validateUniform_error ⟨x, h.mem_iff.1 hm, hx⟩⟩
  · push Not at hx
    exact .inr ⟨validateUniform_ok hx, validateUniform_ok fun x hm => hx x (h.mem_iff.2 hm)⟩

/-- The statistics whose arguments do not refer to positions in the sample: all but the Stein
statistic with censoring indices (for which see `C61_censored`). -/
def PositionFree : UniStat → Prop
  | .censoredStein delta => delta.uncensored = true
  | _ => True

/-- **C61** for the uniformity statistics: two samples with the same observations in a different
order give the same value (or the same error). -/
theorem C61_uniform (s : UniStat) (hs : PositionFree s) (a b : ℝ) {xs ys : List ℝ}
    (h : xs.Perm ys) : s.value a b xs = s.value a b ys := by
  have hsort := sort_eq_of_perm h
  have hl := h.length_eq
  have hstd := standard_perm h a b
  rcases validateUniform_perm h a b with ⟨h1, h2⟩ | ⟨h1, h2⟩
  · simp [UniStat.value, h1, h2, bind, Except.bind]
  · cases s with
    | censoredStein d =>
      have hd : d.uncensored = true := hs
      simp only [UniStat.value, h1, h2, bind, Except.bind, Uniform.censoredStein, hd, if_true,
        steinU_perm hstd]
    | chi2 lam k =>
      simp only [UniStat.value, h1, h2, bind, Except.bind, Uniform.chi2, hl, numBins_perm h,
        histogram_perm h]
    | bickelRosenblatt k =>
      simp only [UniStat.value, h1, h2, bind, Except.bind, Uniform.bickelRosenblatt, hl,
        variance_perm hstd]
      have : ∀ f : ℝ → ℝ, mean ((standard a b xs).map f) = mean ((standard a b ys).map f) :=
        fun f => mean_perm (hstd.map f)
      simp only [this]
    | stein => simp only [UniStat.value, h1, h2, bind, Except.bind, steinU_perm hstd]
    | neyman k =>
      simp only [UniStat.value, h1, h2, bind, Except.bind, Uniform.neyman, hstd.length_eq,
        (hstd.map _).sum_eq]
    | _ =>
      simp only [UniStat.value, h1, h2, bind, Except.bind, uniformVals, hsort, greenwoodUniform,
        shermanUniform, quesenberryMillerUniform, hl]

example : UniStat.value (.chi2 1 .sturges) 0 3 [3, 1, 2] = UniStat.value (.chi2 1 .sturges) 0 3 [1, 3, 2] :=
  C61_uniform (.chi2 1 .sturges) trivial 0 3 (.swap _ _ _)

theorem sum_filter_map {α M : Type} [AddCommMonoid M] (p : α → Bool) (f : α → M) : ∀ l : List α,
    ((l.filter p).map f).sum = (l.map fun x => if p x then f x else 0).sum
  | [] => rfl
  | x :: l => by
    rw [List.filter_cons]
    split <;> simp_all [sum_filter_map p f l]

theorem length_filter_sum {α : Type} (p : α → Bool) (l : List α) :
    (l.filter p).length = (l.map fun x => if p x then 1 else 0).sum := by
  rw [← sum_filter_map p (fun _ => 1) l]; simp

theorem weightedU_perm (km : ℝ → ℝ) {xs ys : List (ℝ × ℤ)} (h : xs.Perm ys) :
    weightedU km xs = weightedU km ys := by
  have e1 : ∀ l : List (ℝ × ℤ), (((pairs l).filter fun p => p.1.2 = 0 ∧ p.2.2 = 0).map fun p =>
      1 / max (km p.1.1) (1 / 10 ^ 10) * (1 / max (km p.2.1) (1 / 10 ^ 10)) *
        steinKernel p.1.1 p.2.1).sum =
      pairSum (fun p q : ℝ × ℤ => if p.2 = 0 ∧ q.2 = 0 then
        1 / max (km p.1) (1 / 10 ^ 10) * (1 / max (km q.1) (1 / 10 ^ 10)) * steinKernel p.1 q.1
        else 0) l := fun l => by
    rw [sum_filter_map, ← pairs_sum]
    simp
  have e2 : ∀ l : List (ℝ × ℤ), ((pairs l).filter fun p => p.1.2 = 0 ∧ p.2.2 = 0).length =
      pairSum (fun p q : ℝ × ℤ => if p.2 = 0 ∧ q.2 = 0 then 1 else 0) l := fun l => by
    rw [length_filter_sum, ← pairs_sum]
    simp
  have p1 := pairSum_perm (g := fun p q : ℝ × ℤ => if p.2 = 0 ∧ q.2 = 0 then
        1 / max (km p.1) (1 / 10 ^ 10) * (1 / max (km q.1) (1 / 10 ^ 10)) * steinKernel p.1 q.1
        else 0) (fun p q => by
          simp only [steinKernel_comm p.1 q.1, and_comm (a := p.2 = 0)]
          congr 1
          ring) h
  have p2 := pairSum_perm (g := fun p q : ℝ × ℤ => if p.2 = 0 ∧ q.2 = 0 then 1 else 0) (fun p q => by
    simp only [and_comm (a := p.2 = 0)]) h
  simp only [weightedU, e1, e2, p1, p2]

theorem kaplanMeier_perm {xs ys : List (ℝ × ℤ)} (h : xs.Perm ys) (hd : (xs.map Prod.fst).Nodup)
    (t : ℝ) : kaplanMeier (xs.map Prod.fst) (xs.map Prod.snd) t =
      kaplanMeier (ys.map Prod.fst) (ys.map Prod.snd) t := by
  have hz : ∀ l : List (ℝ × ℤ), (l.map Prod.fst).zip (l.map Prod.snd) = l := fun l => by
    rw [List.zip_map]
    induction l with
    | nil => rfl
    | cons x l ih => simpa using ih
  have hsort : ∀ l : List (ℝ × ℤ),
      (l.insertionSort fun p q => p.1 ≤ q.1).Pairwise fun p q => p.1 ≤ q.1 := fun l => by
    have : Std.Total fun p q : ℝ × ℤ => p.1 ≤ q.1 := ⟨fun p q => le_total p.1 q.1⟩
    have : IsTrans (ℝ × ℤ) fun p q : ℝ × ℤ => p.1 ≤ q.1 := ⟨fun p q r => le_trans⟩
    exact List.pairwise_insertionSort _ l
  have hs : (xs.insertionSort fun p q => p.1 ≤ q.1) = ys.insertionSort fun p q => p.1 ≤ q.1 := by
    refine List.Perm.eq_of_pairwise (le := fun p q : ℝ × ℤ => p.1 ≤ q.1) ?_ (hsort xs) (hsort ys)
      ((List.perm_insertionSort _ xs).trans (h.trans (List.perm_insertionSort _ ys).symm))
    intro p q hp hq h1 h2
    have hp' : p ∈ xs := (List.perm_insertionSort _ xs).mem_iff.1 hp
    have hq' : q ∈ xs := h.mem_iff.2 ((List.perm_insertionSort _ ys).mem_iff.1 hq)
    exact List.inj_on_of_nodup_map hd hp' hq' (le_antisymm h1 h2)
  simp only [kaplanMeier, hz, hs, List.length_map, h.length_eq, (h.map Prod.fst).countP_eq]

/-- **C61**, the censored Stein statistic: reordering the observations together with their censoring
indices changes nothing when the observations are distinct. -/
theorem C61_censored {a b : ℝ} (hab : a < b) {xs ys : List (ℝ × ℤ)} (h : xs.Perm ys)
    (hd : (xs.map Prod.fst).Nodup) :
    UniStat.value (.censoredStein (.list (xs.map Prod.snd))) a b (xs.map Prod.fst) =
      UniStat.value (.censoredStein (.list (ys.map Prod.snd))) a b (ys.map Prod.fst) ∧
    UniStat.value (.censoredStein (.array (xs.map Prod.snd))) a b (xs.map Prod.fst) =
      UniStat.value (.censoredStein (.array (ys.map Prod.snd))) a b (ys.map Prod.fst) := by
  have hba : b - a ≠ 0 := (sub_pos.2 hab).ne'
  set f : ℝ × ℤ → ℝ × ℤ := fun p => ((p.1 - a) / (b - a), p.2) with hf
  have hs : ∀ l : List (ℝ × ℤ), standard a b (l.map Prod.fst) = (l.map f).map Prod.fst := fun l => by
    simp [standard, hf, List.map_map, Function.comp_def]
  have h2 : ∀ l : List (ℝ × ℤ), l.map Prod.snd = (l.map f).map Prod.snd := fun l => by
    simp [hf, List.map_map, Function.comp_def]
  have hz : ∀ l : List (ℝ × ℤ), ((l.map f).map Prod.fst).zip (l.map Prod.snd) = l.map f := fun l => by
    rw [h2 l]
    induction l.map f with
    | nil => rfl
    | cons x l ih => simpa using ih
  have hfd : ((xs.map f).map Prod.fst).Nodup := by
    rw [← hs, standard]
    refine hd.map fun x y hxy => ?_
    have := (div_left_inj' hba).1 hxy
    linarith
  have hk : kaplanMeier ((xs.map f).map Prod.fst) (xs.map Prod.snd) =
      kaplanMeier ((ys.map f).map Prod.fst) (ys.map Prod.snd) := by
    rw [h2 xs, h2 ys]
    exact funext fun t => kaplanMeier_perm (h.map f) hfd t
  have hu : steinU (standard a b (xs.map Prod.fst)) = steinU (standard a b (ys.map Prod.fst)) :=
    steinU_perm (standard_perm (h.map _) a b)
  have hw : weightedU (kaplanMeier ((ys.map f).map Prod.fst) (ys.map Prod.snd)) (xs.map f) =
      weightedU (kaplanMeier ((ys.map f).map Prod.fst) (ys.map Prod.snd)) (ys.map f) :=
    weightedU_perm _ (h.map f)
  have hall : (xs.map Prod.snd).all (· == 0) = (ys.map Prod.snd).all (· == 0) := by
    rw [Bool.eq_iff_iff, List.all_eq_true, List.all_eq_true]
    exact ⟨fun H x hx => H x ((h.map _).mem_iff.2 hx), fun H x hx => H x ((h.map _).mem_iff.1 hx)⟩
  have body : ∀ d d' : Indices, d.values = xs.map Prod.snd → d'.values = ys.map Prod.snd →
      d.uncensored = d'.uncensored → UniStat.value (.censoredStein d) a b (xs.map Prod.fst) =
        UniStat.value (.censoredStein d') a b (ys.map Prod.fst) := by
    intro d d' hv hv' hun
    rcases validateUniform_perm (h.map Prod.fst) a b with ⟨g1, g2⟩ | ⟨g1, g2⟩
    · simp [UniStat.value, g1, g2, bind, Except.bind]
    · simp only [UniStat.value, g1, g2, bind, Except.bind, Uniform.censoredStein, hun, hv, hv',
        List.length_map, h.length_eq, hu]
      rw [hs xs, hs ys, hz, hz, hk, hw]
  exact ⟨body _ _ rfl rfl rfl, body _ _ rfl rfl hall⟩

example : UniStat.value (.censoredStein (.list [0, 1, 0])) 0 1 [1 / 2, 1 / 3, 1 / 4] =
    UniStat.value (.censoredStein (.list [1, 0, 0])) 0 1 [1 / 3, 1 / 2, 1 / 4] :=
  (C61_censored (xs := [(1 / 2, 0), (1 / 3, 1), (1 / 4, 0)]) (by norm_num) (.swap _ _ _)
    (by norm_num)).1

/-! ### C88: no censored observation -/

theorem kmSurvival_zero (n : ℕ) {delta : List ℤ} (h : ∀ d ∈ delta, d = 0) : ∀ k : ℕ,
    kmSurvival n delta k = 1
  | 0 => rfl
  | k + 1 => by
    have : delta.getD k 0 = 0 := by
      rcases lt_or_ge k delta.length with hk | hk
      · rw [List.getD_eq_getElem _ _ hk]; exact h _ (List.getElem_mem hk)
      · exact List.getD_eq_default _ _ hk
    rw [kmSurvival, this, if_neg (by norm_num), kmSurvival_zero n h k]

theorem length_pairs {α : Type} : ∀ l : List α,
    2 * ((pairs l).length : ℝ) = l.length * ((l.length : ℝ) - 1)
  | [] => by simp [pairs]
  | x :: l => by
    have := length_pairs l
    rw [pairs, List.length_append, List.length_map, List.length_cons]
    push_cast
    linarith

theorem mem_pairs {α : Type} : ∀ {l : List α} {p : α × α}, p ∈ pairs l → p.1 ∈ l ∧ p.2 ∈ l
  | x :: l, p, h => by
    rw [pairs, List.mem_append, List.mem_map] at h
    rcases h with ⟨y, hy, rfl⟩ | h
    · exact ⟨List.mem_cons_self, List.mem_cons_of_mem _ hy⟩
    · exact (mem_pairs h).imp (List.mem_cons_of_mem _) (List.mem_cons_of_mem _)

theorem pairs_map {α β : Type} (f : α → β) : ∀ l : List α,
    pairs (l.map f) = (pairs l).map fun p => (f p.1, f p.2)
  | [] => rfl
  | x :: l => by simp [pairs, pairs_map f l, List.map_map, Function.comp_def]

/-- Without censored observations the weighted statistic is twice the Stein statistic. -/
theorem weightedU_uncensored (std : List ℝ) :
    weightedU (kaplanMeier std (List.replicate std.length 0))
      (std.zip (List.replicate std.length 0)) = 2 * steinU std := by
  have hkm : ∀ t, kaplanMeier std (List.replicate std.length 0) t = 1 := fun t => by
    unfold kaplanMeier
    refine kmSurvival_zero _ (fun d hd => ?_) _
    obtain ⟨p, hp, rfl⟩ := List.mem_map.1 hd
    have := (List.perm_insertionSort _ _).mem_iff.1 hp
    exact List.eq_of_mem_replicate (List.of_mem_zip this).2
  have hzip : ∀ l : List ℝ, l.zip (List.replicate l.length (0 : ℤ)) = l.map fun x => (x, 0) := by
    intro l
    induction l with
    | nil => rfl
    | cons x l ih => simpa [List.replicate_succ] using ih
  have hfree : (pairs (std.map fun x => (x, (0 : ℤ)))).filter
      (fun p => p.1.2 = 0 ∧ p.2.2 = 0) = pairs (std.map fun x => (x, (0 : ℤ))) := by
    rw [List.filter_eq_self]
    intro p hp
    obtain ⟨h1, h2⟩ := mem_pairs hp
    obtain ⟨x, -, hx⟩ := List.mem_map.1 h1
    obtain ⟨y, -, hy⟩ := List.mem_map.1 h2
    simp [← hx, ← hy]
  have hmax : (1 : ℝ) / max 1 (1 / 10 ^ 10) = 1 := by
    rw [max_eq_left (by norm_num)]; norm_num
  have hlen := length_pairs std
  simp only [weightedU, hzip, hfree, hkm, hmax, one_mul, steinU]
  simp only [pairs_map, List.length_map, List.map_map, Function.comp_def]
  by_cases h1 : 1 < std.length
  · have h1' : (1 : ℝ) < std.length := by exact_mod_cast h1
    have hpos : 0 < (pairs std).length := by
      have : (0 : ℝ) < 2 * ((pairs std).length : ℝ) := by rw [hlen]; nlinarith
      have : (0 : ℝ) < ((pairs std).length : ℝ) := by linarith
      exact_mod_cast this
    rw [if_pos hpos, if_pos h1, ← hlen]
    have : ((pairs std).length : ℝ) ≠ 0 := by exact_mod_cast hpos.ne'
    field_simp
  · have h0 : (pairs std).length = 0 := by
      have : (std.length : ℝ) * ((std.length : ℝ) - 1) = 0 := by
        have : std.length = 0 ∨ std.length = 1 := by omega
        rcases this with h | h <;> simp [h]
      rw [this] at hlen
      have : ((pairs std).length : ℝ) = 0 := by linarith
      exact_mod_cast this
    rw [if_neg (by omega), if_neg h1, mul_zero]

/-- **C88**, what holds: without censoring indices, or with an array of zeros, the censored Stein
statistic is the Stein statistic of the same sample. -/
theorem C88_partial (a b : ℝ) (xs : List ℝ) (n : ℕ) :
    UniStat.value (.censoredStein .none) a b xs = UniStat.value .stein a b xs ∧
    UniStat.value (.censoredStein (.array (List.replicate n 0))) a b xs =
      UniStat.value .stein a b xs := by
  have : (Indices.array (List.replicate n 0)).uncensored = true := by
    simp [Indices.uncensored]
  constructor
  · simp only [UniStat.value, Uniform.censoredStein, Indices.uncensored, if_true]
    rfl
  · simp only [UniStat.value, Uniform.censoredStein, this, if_true]
    rfl

/-- **C88**, what a Python list of zeros gives instead: twice the Stein statistic. -/
theorem C88_list (a b : ℝ) (xs : List ℝ) :
    UniStat.value (.censoredStein (.list (List.replicate xs.length 0))) a b xs =
      (UniStat.value .stein a b xs).map (2 * ·) := by
  by_cases hx : ∃ x ∈ xs, x < a ∨ b < x
  · simp [UniStat.value, validateUniform_error hx, bind, Except.bind, Except.map]
  · push Not at hx
    have h1 : (standard a b xs).length = xs.length := by simp [standard]
    have h2 := weightedU_uncensored (standard a b xs)
    rw [h1] at h2
    simp [UniStat.value, validateUniform_ok hx, bind, Except.bind, Except.map, Uniform.censoredStein,
      Indices.uncensored, Indices.values, h2, pure, Except.pure]

/-- **C88**, refuted: a list that marks no observation as censored changes the value. -/
theorem C88_refuted :
    UniStat.value (.censoredStein (.list [0, 0])) 0 1 [1 / 4, 1 / 2] ≠
      UniStat.value .stein 0 1 [1 / 4, 1 / 2] := by
  have h := C88_list 0 1 [1 / 4, 1 / 2]
  have h2 : UniStat.value .stein 0 1 [1 / 4, 1 / 2] = .ok (-3 / 32) := by
    have hv : validateUniform (0 : ℝ) 1 [1 / 4, 1 / 2] = .ok [1 / 4, 1 / 2] :=
      validateUniform_ok (by norm_num)
    have hm : max (1 / 4 : ℝ) (1 / 2) = 1 / 2 := max_eq_right (by norm_num)
    simp only [UniStat.value, hv, bind, Except.bind, standard, List.map_cons, List.map_nil, sub_zero,
      div_one, steinU, pairs, List.nil_append, List.append_nil, steinKernel, hm, List.length_cons,
      List.length_nil, List.sum_cons, List.sum_nil, pure, Except.pure]
    norm_num
  rw [h2] at h ⊢
  change UniStat.value (.censoredStein (.list [0, 0])) 0 1 [1 / 4, 1 / 2] = _ at h
  rw [h]
  norm_num [Except.map]

/-! ### C64 -/

theorem ks_ne_error (t : AlternativeType) {vals : List ℝ} (h : vals ≠ []) :
    ∃ d, Edf.ks t vals = .ok d := by
  obtain ⟨p, hp⟩ := dPlus_exists h
  obtain ⟨m, hm⟩ := dMinus_exists h
  cases t
  · exact ⟨_, ks_right hp hm⟩
  · exact ⟨_, ks_left hm⟩
  · exact ⟨_, ks_two hp hm⟩

/-- What a uniformity statistic can raise on a non-empty sample in the interval. -/
theorem uniform_outcome (s : UniStat) {a b : ℝ} {xs : List ℝ} (hne : xs ≠ [])
    (h : ∀ x ∈ xs, a ≤ x ∧ x ≤ b) : (∃ v, s.value a b xs = .ok v) ∨
      (∃ lam, s = .chi2 lam .auto ∧ variance xs = 0 ∧ s.value a b xs = .error .overflowError) ∨
      (∃ d, s = .censoredStein d ∧ d.uncensored = false ∧ d.values.length ≠ xs.length ∧
        s.value a b xs = .error .indexError) := by
  have hok := validateUniform_ok h
  have hn : xs.length ≠ 0 := by simpa using hne
  have hsn : (sort xs).map (uniformCdf a b) ≠ [] := by simpa using sort_ne_nil hne
  have hsu : uniformVals a b xs ≠ [] := by simpa [uniformVals] using sort_ne_nil hne
  cases s with
  | ks t =>
    obtain ⟨d, hd⟩ := ks_ne_error t hsn
    exact .inl ⟨d, by simp [UniStat.value, hok, bind, Except.bind, hd]⟩
  | lilliefors =>
    obtain ⟨d, hd⟩ := ks_ne_error .twoTailed hsn
    exact .inl ⟨d, by simp [UniStat.value, hok, bind, Except.bind, hd]⟩
  | kuiper =>
    obtain ⟨p, hp⟩ := dPlus_exists hsu
    obtain ⟨m, hm⟩ := dMinus_exists hsu
    exact .inl ⟨_, by simp only [UniStat.value, hok, bind, Except.bind, kuiper_eq hp hm]; rfl⟩
  | chi2 lam k =>
    cases k with
    | auto =>
      by_cases h0 : 7 / 2 * √(variance xs) / (xs.length : ℝ) ^ (1 / 3 : ℝ) = 0
      · refine .inr (.inl ⟨lam, rfl, ?_, ?_⟩)
        · have h1 : (0 : ℝ) < (xs.length : ℝ) ^ (1 / 3 : ℝ) :=
            Real.rpow_pos_of_pos (by exact_mod_cast Nat.pos_of_ne_zero hn) _
          rw [div_eq_zero_iff, or_iff_left h1.ne', mul_eq_zero, or_iff_right (by norm_num),
            Real.sqrt_eq_zero'] at h0
          refine le_antisymm h0 ?_
          unfold variance
          exact div_nonneg (sumsq_nonneg xs) (by positivity)
        · simp only [UniStat.value, hok, bind, Except.bind, Uniform.chi2, numBins, if_pos h0, if_neg hn]
      · exact .inl ⟨_, by
          simp only [UniStat.value, hok, bind, Except.bind, Uniform.chi2, numBins, if_neg h0,
            if_neg hn]; rfl⟩
    | sturges =>
      exact .inl ⟨_, by
        simp only [UniStat.value, hok, bind, Except.bind, Uniform.chi2, numBins, if_neg hn]; rfl⟩
    | _ => exact .inl ⟨_, by
        simp only [UniStat.value, hok, bind, Except.bind, Uniform.chi2, numBins]; rfl⟩
  | censoredStein d =>
    by_cases hd : d.uncensored = true
    · exact .inl ⟨_, by
        simp only [UniStat.value, hok, bind, Except.bind, Uniform.censoredStein, if_pos hd]; rfl⟩
    · by_cases hlen : d.values.length ≠ xs.length
      · exact .inr (.inr ⟨d, rfl, by simpa using hd, hlen, by
          simp [UniStat.value, hok, bind, Except.bind, Uniform.censoredStein, hd, hlen]⟩)
      · exact .inl ⟨_, by
          simp only [UniStat.value, hok, bind, Except.bind, Uniform.censoredStein, if_neg hd,
            if_neg hlen]; rfl⟩
  | _ => exact .inl ⟨_, by
      simp only [UniStat.value, hok, bind, Except.bind, greenwoodUniform,
        shermanUniform, quesenberryMillerUniform]; rfl⟩

/-- **C64** for the uniformity statistics: on a non-empty sample a statistic raises `ValueError`
exactly when some observation lies outside the interval. -/
theorem C64_uniform (s : UniStat) (a b : ℝ) {xs : List ℝ} (hne : xs ≠ []) :
    s.value a b xs = .error .valueError ↔ ∃ x ∈ xs, x < a ∨ b < x := by
  constructor
  · intro h
    by_contra hx
    push Not at hx
    rcases uniform_outcome s hne hx with ⟨v, hv⟩ | ⟨_, _, _, hv⟩ | ⟨_, _, _, _, hv⟩ <;>
      rw [hv] at h <;> cases h
  · intro h
    simp [UniStat.value, validateUniform_error h, bind, Except.bind]

example : UniStat.value (.neyman 4) 0 3 [1, 2, 4] = .error .valueError :=
  (C64_uniform _ 0 3 (by simp)).2 ⟨4, by simp, .inr (by norm_num)⟩

example : UniStat.value (.neyman 4) 0 3 [1, 2, 3] ≠ .error .valueError := by
  rw [ne_eq, C64_uniform _ 0 3 (by simp)]
  norm_num

/-- **C64**: the constructor of the uniformity statistics raises `ValueError` exactly when the
interval is empty or a point, and keeps the parameters otherwise. -/
theorem C64_uniform_init (a b : ℝ) :
    (Uniform.init a b = .error .valueError ↔ ¬ a < b) ∧ (a < b → Uniform.init a b = .ok (a, b)) := by
  unfold Uniform.init
  constructor
  · rw [not_lt]; split <;> simp_all
  · intro h; rw [if_neg (not_le.2 h)]

/-! ### C89: a value for every sample of the support -/

/-- **C89**, what holds: on a non-empty sample of the interval every uniformity statistic returns a
number, except the Pearson statistic with `bins="auto"` of a constant sample and the censored Stein
statistic with the wrong number of indices. -/
theorem C89_partial (s : UniStat) {a b : ℝ} {xs : List ℝ} (hne : xs ≠ [])
    (h : ∀ x ∈ xs, a ≤ x ∧ x ≤ b) (h1 : ∀ lam, s = .chi2 lam .auto → variance xs ≠ 0)
    (h2 : ∀ d, s = .censoredStein d → d.uncensored = false → d.values.length = xs.length) :
    ∃ v, s.value a b xs = .ok v := by
  rcases uniform_outcome s hne h with h | ⟨lam, hl, hv, -⟩ | ⟨d, hd, hu, hlen, -⟩
  · exact h
  · exact absurd hv (h1 lam hl)
  · exact absurd (h2 d hd hu) hlen

example : ∃ v, UniStat.value (.chi2 1 .auto) 0 3 [1, 2, 3] = .ok v := by
  refine C89_partial _ (by simp) (by norm_num) (fun lam h => ?_) (by simp)
  norm_num [variance, mean]

/-- **C89**, refuted: with `bins="auto"` the Pearson statistic of any single observation, or of any
constant sample, raises `OverflowError`. -/
theorem C89_refuted (lam : ℝ) {a b x : ℝ} (h : a ≤ x ∧ x ≤ b) (n : ℕ) :
    UniStat.value (.chi2 lam .auto) a b (List.replicate (n + 1) x) = .error .overflowError := by
  have hm : mean (List.replicate (n + 1) x) = x := by
    unfold mean
    have : ((n : ℝ) + 1) ≠ 0 := by positivity
    simp
    field_simp
  have hv : variance (List.replicate (n + 1) x) = 0 := by
    unfold variance
    rw [hm]
    simp
  have hok : validateUniform a b (List.replicate (n + 1) x) = .ok (List.replicate (n + 1) x) :=
    validateUniform_ok fun y hy => by rw [List.eq_of_mem_replicate hy]; exact h
  simp only [UniStat.value, hok, bind, Except.bind, Uniform.chi2, numBins, hv]
  simp

/-! ### C86: the interval may be moved along with the sample -/

section affine

variable {c d : ℝ}

theorem aff_lt (hd : 0 < d) {x y : ℝ} : aff c d x < aff c d y ↔ x < y := by
  unfold aff
  constructor
  · intro h
    by_contra h'
    have := mul_le_mul_of_nonneg_left (not_lt.1 h') hd.le
    linarith
  · intro h
    have := mul_lt_mul_of_pos_left h hd
    linarith

theorem aff_le (hd : 0 < d) {x y : ℝ} : aff c d x ≤ aff c d y ↔ x ≤ y := by
  rw [← not_lt, ← not_lt, aff_lt hd]

theorem aff_standard (hd : 0 < d) (a b x : ℝ) :
    (aff c d x - aff c d a) / (aff c d b - aff c d a) = (x - a) / (b - a) := by
  have h1 : aff c d x - aff c d a = d * (x - a) := by unfold aff; ring
  have h2 : aff c d b - aff c d a = d * (b - a) := by unfold aff; ring
  rw [h1, h2, mul_div_mul_left _ _ hd.ne']

theorem uniformCdf_aff (hd : 0 < d) (a b x : ℝ) :
    uniformCdf (aff c d a) (aff c d b) (aff c d x) = uniformCdf a b x := by
  simp only [uniformCdf, aff_le hd, aff_standard hd]

theorem standard_aff (hd : 0 < d) (a b : ℝ) (xs : List ℝ) :
    standard (aff c d a) (aff c d b) (xs.map (aff c d)) = standard a b xs := by
  unfold standard
  rw [List.map_map]
  exact List.map_congr_left fun x _ => aff_standard hd a b x

theorem uniformVals_aff (hd : 0 < d) (a b : ℝ) (xs : List ℝ) :
    uniformVals (aff c d a) (aff c d b) (xs.map (aff c d)) = uniformVals a b xs := by
  unfold uniformVals
  rw [sort_aff c hd, List.map_map]
  exact List.map_congr_left fun x _ => aff_standard hd a b x

theorem histogram_aff (hd : 0 < d) (xs : List ℝ) : ∀ e : List ℝ,
    histogram (e.map (aff c d)) (xs.map (aff c d)) = histogram e xs
  | [] => rfl
  | [_] => rfl
  | e :: e' :: es => by
    have ih := histogram_aff hd xs (e' :: es)
    simp only [List.map_cons, histogram] at ih ⊢
    rw [ih, List.countP_map]
    simp only [Function.comp_def, aff_le hd, aff_lt hd, List.map_eq_nil_iff]

theorem equalEdges_aff (a b : ℝ) (k : ℕ) :
    equalEdges (aff c d a) (aff c d b) k = (equalEdges a b k).map (aff c d) := by
  unfold equalEdges
  rw [List.map_map]
  refine List.map_congr_left fun i _ => ?_
  simp only [Function.comp, aff]
  ring

theorem numBins_aff (hd : 0 < d) (a b : ℝ) {xs : List ℝ} (hne : xs ≠ []) (k : Bins) :
    numBins (aff c d a) (aff c d b) (xs.map (aff c d)) k = numBins a b xs k := by
  cases k with
  | auto =>
    have h1 : 7 / 2 * √(d ^ 2 * variance xs) / (xs.length : ℝ) ^ (1 / 3 : ℝ) =
        d * (7 / 2 * √(variance xs) / (xs.length : ℝ) ^ (1 / 3 : ℝ)) := by
      rw [sqrt_sq_mul hd]; ring
    have h2 : aff c d b - aff c d a = d * (b - a) := by unfold aff; ring
    simp only [numBins, List.length_map, variance_aff c d hne, h1, h2, mul_div_mul_left _ _ hd.ne',
      mul_eq_zero, hd.ne', false_or]
  | _ => simp only [numBins, List.length_map]

theorem validateUniform_aff (hd : 0 < d) (a b : ℝ) (xs : List ℝ) :
    (validateUniform a b xs = .error .valueError ∧
      validateUniform (aff c d a) (aff c d b) (xs.map (aff c d)) = .error .valueError) ∨
    (validateUniform a b xs = .ok xs ∧
      validateUniform (aff c d a) (aff c d b) (xs.map (aff c d)) = .ok (xs.map (aff c d))) := by
  by_cases hx : ∃ x ∈ xs, x < a ∨ b < x
  · obtain ⟨x, hm, hx⟩ := hx
    exact .inl ⟨validateUniform_error ⟨x, hm, hx⟩,
      validateUniform_error ⟨aff c d x, List.mem_map_of_mem hm, hx.imp (aff_lt hd).2 (aff_lt hd).2⟩⟩
  · push Not at hx
    refine .inr ⟨validateUniform_ok hx, validateUniform_ok fun y hy => ?_⟩
    obtain ⟨x, hm, rfl⟩ := List.mem_map.1 hy
    exact ⟨(aff_le hd).2 (hx x hm).1, (aff_le hd).2 (hx x hm).2⟩

theorem spacings_aff (hd : 0 < d) (a b : ℝ) (xs : List ℝ) :
    spacings (aff c d a) (aff c d b) (sort (xs.map (aff c d))) =
      (spacings a b (sort xs)).map (d * ·) := by
  unfold spacings
  rw [sort_aff c hd, ← npDiff_aff c d]
  simp

end affine

/-- The statistics of the standardised observations. -/
def Standardised : UniStat → Prop
  | .sherman | .quesenberryMiller => False
  | _ => True

/-- **C86**, what holds: moving and stretching the interval together with the sample leaves every
uniformity statistic except the Sherman and Quesenberry-Miller statistics unchanged; these are
multiplied by the stretching factor and its square. -/
theorem C86_partial (s : UniStat) (a b c : ℝ) {d : ℝ} (hd : 0 < d) {xs : List ℝ} (hne : xs ≠ []) :
    (Standardised s → s.value (c + d * a) (c + d * b) (xs.map fun x => c + d * x) = s.value a b xs) ∧
    UniStat.value .sherman (c + d * a) (c + d * b) (xs.map fun x => c + d * x) =
      (UniStat.value .sherman a b xs).map (d * ·) ∧
    UniStat.value .quesenberryMiller (c + d * a) (c + d * b) (xs.map fun x => c + d * x) =
      (UniStat.value .quesenberryMiller a b xs).map (d ^ 2 * ·) := by
  change (Standardised s → s.value (aff c d a) (aff c d b) (xs.map (aff c d)) = s.value a b xs) ∧
    UniStat.value .sherman (aff c d a) (aff c d b) (xs.map (aff c d)) = _ ∧
    UniStat.value .quesenberryMiller (aff c d a) (aff c d b) (xs.map (aff c d)) = _
  have hcdf : ∀ f : ℝ → ℝ, (sort (xs.map (aff c d))).map (fun x => f (uniformCdf (aff c d a) (aff c d b) x)) =
      (sort xs).map fun x => f (uniformCdf a b x) := fun f => by
    rw [sort_aff c hd, List.map_map]
    exact List.map_congr_left fun x _ => by simp only [Function.comp, uniformCdf_aff hd]
  have hcdf' := hcdf id
  simp only [id] at hcdf'
  rcases validateUniform_aff (c := c) hd a b xs with ⟨h1, h2⟩ | ⟨h1, h2⟩
  · simp [UniStat.value, h1, h2, bind, Except.bind, Except.map]
  · refine ⟨fun hs => ?_, ?_, ?_⟩
    · cases s with
      | sherman => exact hs.elim
      | quesenberryMiller => exact hs.elim
      | chi2 lam k =>
        simp only [UniStat.value, h1, h2, bind, Except.bind, Uniform.chi2, numBins_aff hd a b hne,
          equalEdges_aff, histogram_aff hd, List.length_map]
      | andersonDarling =>
        simp only [UniStat.value, h1, h2, bind, Except.bind, hcdf]
        rw [hcdf fun x => Real.log (1 - x)]
      | ks t =>
        simp only [UniStat.value, h1, h2, bind, Except.bind]
        exact congrArg _ hcdf'
      | cvm =>
        simp only [UniStat.value, h1, h2, bind, Except.bind]
        exact congrArg (fun l => Except.ok (Edf.cvm l)) hcdf'
      | lilliefors =>
        simp only [UniStat.value, h1, h2, bind, Except.bind]
        exact congrArg _ hcdf'
      | greenwood =>
        simp only [UniStat.value, h1, h2, bind, Except.bind, greenwoodUniform, uniformVals_aff hd]
      | censoredStein t =>
        simp only [UniStat.value, h1, h2, bind, Except.bind, Uniform.censoredStein, standard_aff hd,
          List.length_map]
      | bickelRosenblatt t =>
        simp only [UniStat.value, h1, h2, bind, Except.bind, Uniform.bickelRosenblatt, standard_aff hd,
          List.length_map]
      | _ =>
        simp only [UniStat.value, h1, h2, bind, Except.bind, uniformVals_aff hd, standard_aff hd]
    · have h3 : aff c d b - aff c d a = d * (b - a) := by unfold aff; ring
      simp only [UniStat.value, shermanUniform, h1, h2, bind, Except.bind, Except.map, pure,
        Except.pure, spacings_aff hd, h3, List.length_map, List.map_map, Function.comp_def]
      congr 1
      have : ∀ x : ℝ, |d * x - d * (b - a) / (xs.length + 1)| =
          d * |x - (b - a) / (xs.length + 1)| := fun x => by
        rw [← abs_of_pos hd, ← abs_mul, abs_of_pos hd]; congr 1; ring
      simp only [this, List.sum_map_mul_left]
      ring
    · simp only [UniStat.value, quesenberryMillerUniform, h1, h2, bind, Except.bind, Except.map, pure,
        Except.pure, spacings_aff hd, quesenberryMiller, sumSquares, List.map_map, Function.comp_def]
      congr 1
      rw [mul_add, ← List.sum_map_mul_left, ← List.map_tail, List.zipWith_map]
      congr 1
      · simp only [mul_pow]
      · have : ∀ l : List ℝ, d ^ 2 * l.sum = (l.map (d ^ 2 * ·)).sum := fun l =>
          (sum_scale (d ^ 2) l).symm
        rw [this, List.map_zipWith]
        congr 2
        funext x y
        ring

example : UniStat.value (.zhang .A) (5 + 2 * 0) (5 + 2 * 3) ([1, 2, 2].map fun x => 5 + 2 * x) =
    UniStat.value (.zhang .A) 0 3 [1, 2, 2] :=
  (C86_partial _ 0 3 5 (by norm_num) (by simp)).1 trivial

/-- **C86**, refuted: doubling one observation and the interval changes the Sherman and the
Quesenberry-Miller statistics. -/
theorem C86_refuted :
    UniStat.value .sherman 0 2 [2] ≠ UniStat.value .sherman 0 1 [1] ∧
    UniStat.value .quesenberryMiller 0 2 [2] ≠ UniStat.value .quesenberryMiller 0 1 [1] := by
  constructor <;>
    norm_num [UniStat.value, shermanUniform, quesenberryMillerUniform, validateUniform, bind, Except.bind,
      pure, Except.pure, sort, spacings, npDiff, quesenberryMiller, sumSquares, abs_of_pos, abs_of_neg]

end Pysatl.Props
