import Mathlib.Data.List.Nodup
import Verif.Model.Codes

/-! # C67: codes identify criteria -/

namespace Pysatl.Props

open Pysatl.Codes

/-- A number for a string; different numbers mean different strings. -/
def strNum (s : String) : Nat := s.toList.foldl (fun a c => a * 256 + c.toNat) 0

set_option maxRecDepth 100000

theorem registry_length : registry.length = 195 := by decide +kernel

theorem codes_nodup :
    ((registry.filter fun r => r.cls != "SBWeibullGofStatistic").map fun r => strNum r.code).Nodup := by
  decide +kernel

/-- The two criteria that share a code. -/
def sbSmall : Registered := ⟨.weibull, "SbWeibullGofStatistic", "SB", "SB_WEIBULL_GOODNESS_OF_FIT"⟩
def sbLarge : Registered := ⟨.weibull, "SBWeibullGofStatistic", "SB", "SB_WEIBULL_GOODNESS_OF_FIT"⟩

theorem sbSmall_mem : sbSmall ∈ registry := by decide +kernel

theorem sb_ne : sbSmall ≠ sbLarge ∧ sbSmall.cls ≠ sbLarge.cls := by decide +kernel

theorem sb_only : ∀ r ∈ registry, r.cls = "SBWeibullGofStatistic" → r = sbLarge := by decide +kernel

/-- **C67** (partial) Among all criteria of the library only two share their code. -/
theorem C67_unique_partial {a b : Registered} (ha : a ∈ registry) (hb : b ∈ registry)
    (h : a.code = b.code) :
    a = b ∨ (a.cls = "SbWeibullGofStatistic" ∧ b.cls = "SBWeibullGofStatistic") ∨
      (a.cls = "SBWeibullGofStatistic" ∧ b.cls = "SbWeibullGofStatistic") := by
  have hin := List.inj_on_of_nodup_map codes_nodup
  have mem : ∀ r ∈ registry, r ≠ sbLarge →
      r ∈ registry.filter fun r => r.cls != "SBWeibullGofStatistic" := by
    intro r hr hn
    refine List.mem_filter.2 ⟨hr, ?_⟩
    rw [bne_iff_ne]
    exact fun h => hn (sb_only r hr h)
  have hsm := mem _ sbSmall_mem sb_ne.1
  by_cases h1 : a = sbLarge
  · by_cases h2 : b = sbLarge
    · exact Or.inl (h1.trans h2.symm)
    · have := hin (mem b hb h2) hsm (by
        show strNum b.code = strNum sbSmall.code
        rw [← h, h1]
        rfl)
      exact Or.inr (Or.inr ⟨by rw [h1]; rfl, by rw [this]; rfl⟩)
  · by_cases h2 : b = sbLarge
    · have := hin (mem a ha h1) hsm (by
        show strNum a.code = strNum sbSmall.code
        rw [h, h2]
        rfl)
      exact Or.inr (Or.inl ⟨by rw [this]; rfl, by rw [h2]; rfl⟩)
    · exact Or.inl (hin (mem a ha h1) (mem b hb h2) (by show strNum _ = strNum _; rw [h]))

theorem sourceCode_suffix {c : Criterion} (h : c.kind ≠ .bare) :
    c.family.code.toList <:+ c.sourceCode.toList := by
  unfold Criterion.sourceCode
  cases hk : c.kind with
  | bare => exact absurd hk h
  | plain =>
    rw [String.toList_append]
    exact List.suffix_append _ _
  | graph =>
    simp only [String.toList_append]
    rw [← List.append_assoc]
    exact List.suffix_append _ _

theorem bare_only : ∀ c ∈ betaCriteria ++ exponentialCriteria ++ gammaCriteria ++ logNormalCriteria ++
    normalCriteria ++ studentCriteria ++ uniformCriteria ++ weibullCriteria,
    c.kind = .bare → c.cls = "CramerVonMiseNormalityGofStatistic" := by decide +kernel

theorem wrap_check : ∀ c ∈ normalCriteria.filter isWrapped,
    Family.logNormal.code.toList <:+ (wrap c).code.toList := by decide +kernel

/-- **C67** The code of every criterion but one ends with the code of its family. -/
theorem C67_family_partial : ∀ r ∈ registry, r.cls ≠ "CramerVonMiseNormalityGofStatistic" →
    r.family.code.toList <:+ r.code.toList := by
  intro r hr hn
  unfold registry at hr
  rcases List.mem_append.1 hr with h | h
  · obtain ⟨c, hc, rfl⟩ := List.mem_map.1 h
    exact sourceCode_suffix fun hk => hn (bare_only c hc hk)
  · obtain ⟨c, hc, rfl⟩ := List.mem_map.1 h
    exact wrap_check c hc

/-- The Cramér-von Mises criterion for normality. -/
def cvmNormal : Registered :=
  ⟨.normal, "CramerVonMiseNormalityGofStatistic", "CVM", "CVM_GOODNESS_OF_FIT"⟩

theorem cvmNormal_mem : cvmNormal ∈ registry := by decide +kernel

theorem cvmNormal_suffix : ¬ cvmNormal.family.code.toList <:+ cvmNormal.code.toList := by decide +kernel

/-- The remaining one: the code of the Cramér-von Mises normality criterion names no family. -/
theorem C67_family_refuted : ∃ r ∈ registry, r.family = .normal ∧ r.code = "CVM_GOODNESS_OF_FIT" ∧
    ¬ r.family.code.toList <:+ r.code.toList :=
  ⟨cvmNormal, cvmNormal_mem, rfl, rfl, cvmNormal_suffix⟩

theorem sbLarge_mem : sbLarge ∈ registry := by decide +kernel

/-- **C67, refuted** Two different Weibull criteria have the same code. -/
theorem C67_refuted : ∃ a ∈ registry, ∃ b ∈ registry, a ≠ b ∧ a.cls ≠ b.cls ∧ a.code = b.code :=
  ⟨sbSmall, sbSmall_mem, sbLarge, sbLarge_mem, sb_ne.1, sb_ne.2, rfl⟩

end Pysatl.Props
