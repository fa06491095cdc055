import Verif.Model.Index

/-!
# Model of `pfutil/voronoi.go`
-/

namespace Gopf.Pfutil

/-- `absInt`, pfutil/voronoi.go:34-39. -/
def absInt (x : Int) : Int := if x < 0 then -x else x

/-- The loop over the two shifts, pfutil/voronoi.go:22-28: the difference of smallest magnitude. -/
def smallestDiff (a b d : Int) : Int :=
  [(-1 : Int), 1].foldl (fun best shift =>
    let diff := a - b + shift * d
    if absInt diff < absInt best then diff else best) (a - b)

/-- The loop over the coordinates, pfutil/voronoi.go:20-30. -/
def distLoop : List Int → List Int → List Int → Int → Option Int
  | [], _, _, dist => some dist
  | a :: as, b :: bs, d :: ds, dist =>
    distLoop as bs ds (dist + smallestDiff a b d * smallestDiff a b d)
  | _ :: _, _, _, _ => none

/-- `pointDistSq`, pfutil/voronoi.go:16-32. -/
def pointDistSq (i j : Int) (dims : List Int) : Option Int := do
  let ipos ← pos dims i
  let jpos ← pos dims j
  distLoop ipos jpos dims 0

/-- The loop of `closestPoint`, pfutil/voronoi.go:41-52; `k` is the index of the head of the
remaining points. -/
def closestLoop (point : Int) (dims : List Int) : List Int → Int → Int → Int → Option Int
  | [], _, _, best => some best
  | p :: ps, k, mindist, best => do
    let d ← pointDistSq p point dims
    if d < mindist then closestLoop point dims ps (k + 1) d k
    else closestLoop point dims ps (k + 1) mindist best

/-- `closestPoint`, pfutil/voronoi.go:41-52; the start value is `math.MaxInt32`. -/
def closestPoint (pts : List Int) (point : Int) (dims : List Int) : Option Int :=
  closestLoop point dims pts 0 (2 ^ 31 - 1) 0

/-- `Voronoi`, pfutil/voronoi.go:8-12; `n` is the length of the output slice. -/
def voronoi (pts : List Int) (n : Nat) (dims : List Int) : Option (List Int) :=
  (List.range n).mapM fun (i : Nat) => closestPoint pts (i : Int) dims

end Gopf.Pfutil
