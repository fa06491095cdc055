import Verif.Model.Text
import Mathlib.Data.List.Lex
import Mathlib.Data.List.Sort

/-!
# Model of `SortFactors` of `pf/util.go`
-/

namespace Gopf.Pf

/-- `strings.Join(l, "*")` of the standard library. Used at pf/util.go:299. -/
def joinStar (l : List Str) : Str := List.intercalate ['*'] l

/-- `sort.Strings` of the standard library: ascending in the lexicographic order. The algorithm is insertion
sort; any sorting algorithm returns the same list because the order is total. Used at pf/util.go:298. -/
def sortStrings (l : List Str) : List Str := l.insertionSort (· ≤ ·)

/-- `SortFactors`, pf/util.go:296-300. -/
def sortFactors (expr : Str) : Str := joinStar (sortStrings (goSplit '*' expr))

end Gopf.Pf
