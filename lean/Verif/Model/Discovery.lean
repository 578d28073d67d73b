import Mathlib.Data.Finset.Basic
import Mathlib.Data.Finset.Union
import Verif.Model.Basic

/-!
# Discovery of criteria, generators and descriptors

`src/pysatl_criterion/utils/statistic.py`, `utils/generator.py`, `utils/distribution.py`.
-/

namespace Pysatl.Discovery

/-- The classes of a program, numbered in the order of their creation.  `subs c` is
`c.__subclasses__()`: the direct subclasses of `c`, each once, all created after `c`.
`concrete c` is `not inspect.isabstract(c)`.  Multiple inheritance makes a class a direct subclass
of several classes. -/
structure Hierarchy where
  subs : ℕ → List ℕ
  count : ℕ
  nodup : ∀ c, (subs c).Nodup
  later : ∀ c s, s ∈ subs c → c < s ∧ s < count
  concrete : ℕ → Bool

/-- `__get_all_subclasses`, `utils/statistic.py` 29-47 and `utils/generator.py` 43-61: a set,
updated with the subclasses of each direct subclass and with the direct subclass itself.  The
test `issubclass(subclass, Root)` of both functions holds for every class reached from `Root` and
is left out. -/
def allSubclasses (H : Hierarchy) (c : ℕ) : Finset ℕ :=
  (H.subs c).attach.foldl
    (fun acc s => insert s.1 (acc ∪ allSubclasses H s.1)) ∅
termination_by H.count - c
decreasing_by
  have := H.later c s.1 s.2
  omega

/-- `get_available_criteria`, `utils/statistic.py` 8-27: `dist` gives the distribution of a class
and `short` its short code.  The order in which Python iterates over a set is arbitrary: `iter`. -/
def availableCriteria {D : Type} [DecidableEq D] (H : Hierarchy) (iter : Finset ℕ → List ℕ)
    (root : ℕ) (dist : ℕ → D) (short : ℕ → String) (d : D) : List String :=
  ((iter (allSubclasses H root)).filter fun c => H.concrete c && decide (dist c = d)).map short

/-- `get_available_generator`, `utils/generator.py` 11-34: `next` of the matching classes;
`StopIteration` when there is none.  The class stands for the object its constructor returns. -/
def availableGenerator {D : Type} [DecidableEq D] (H : Hierarchy) (iter : Finset ℕ → List ℕ)
    (root : ℕ) (dist : ℕ → D) (d : D) : Except PyErr ℕ :=
  match (iter (allSubclasses H root)).filter (fun c => H.concrete c && decide (dist c = d)) with
  | [] => .error .stopIteration
  | c :: _ => .ok c

/-- `_iter_distribution_descriptor_classes`, `utils/distribution.py` 17-30: the classes the
iterator yields, in order. -/
def iterDescriptors (H : Hierarchy) (c : ℕ) : List ℕ :=
  (H.subs c).attach.flatMap fun s =>
    iterDescriptors H s.1 ++ if H.concrete s.1 then [s.1] else []
termination_by H.count - c
decreasing_by
  have := H.later c s.1 s.2
  omega

/-- `get_available_distribution_descriptor`, `utils/distribution.py` 9-14. -/
def availableDescriptor {D : Type} [DecidableEq D] (H : Hierarchy) (root : ℕ) (dist : ℕ → D)
    (d : D) : Except PyErr ℕ :=
  match (iterDescriptors H root).filter (fun c => decide (dist c = d)) with
  | [] => .error .stopIteration
  | c :: _ => .ok c

end Pysatl.Discovery
