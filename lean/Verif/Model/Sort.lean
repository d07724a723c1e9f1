import Verif.Model.Key
/-! Sorting. The crate sorts only with total orders in which equal elements are identical (src/commit.rs:124, src/diff.rs:165-167,325), so the algorithm and its
stability make no difference; the model sorts by insertion. -/
namespace Snap

/-- Inserting into a sorted list; inside `sort`, src/commit.rs:124, src/diff.rs:165-167,325. -/
def insertBy {α} (le : α → α → Bool) (a : α) : List α → List α
  | [] => [a]
  | b :: l => if le a b then a :: b :: l else b :: insertBy le a l

/-- `sort`/`sort_unstable`; src/commit.rs:124, src/diff.rs:165-167,325. -/
def sortBy {α} (le : α → α → Bool) (l : List α) : List α := l.foldr (insertBy le) []

end Snap
