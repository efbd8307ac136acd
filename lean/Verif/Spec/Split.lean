import Verif.Spec.Interval

/-! # What queries find after insertions, from the list of what was inserted

Every interval that was inserted is an interval at which the later ones part: those that begin before it, and the others. -/

namespace Plotline

open Interval

variable {I B : Type} [Ord B] [Interval I B]

/-- Those that begin before `v`. -/
def sooner (v : I) (is : List I) : List I := is.filter fun x => ltB (lo x) (lo v)

/-- Those that do not begin before `v`. -/
def later (v : I) (is : List I) : List I := is.filter fun x => !ltB (lo x) (lo v)

/-- What `for_each_intersection(q)` reports after the intervals in the list were inserted from the left: those that intersect the query one by one,
but those that begin before the first are only looked at if there is one among them that does not end before the query begins; and so for either
part. -/
def reported (q : I) : List I → List I
  | [] => []
  | v :: is =>
    reported q (later v is) ++ (if intersects v q then [v] else []) ++
      if (sooner v is).any fun x => leB (lo q) (hi x) then reported q (sooner v is) else []
termination_by is => is.length
decreasing_by
  all_goals exact Nat.lt_succ_of_le (List.length_filter_le _ _)

/-- What `intersects(q)` answers: that the first intersects the query, or what it answers for those that begin before the first, if there is one
among them that does not end before the query begins, or else for the others. -/
def foundIn (q : I) : List I → Bool
  | [] => false
  | v :: is =>
    intersects v q ||
      if (sooner v is).any fun x => leB (lo q) (hi x) then foundIn q (sooner v is) else foundIn q (later v is)
termination_by is => is.length
decreasing_by
  all_goals exact Nat.lt_succ_of_le (List.length_filter_le _ _)

end Plotline
