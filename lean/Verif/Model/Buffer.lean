import Verif.Model.Timestamp

/-!
# History buffers

Model of `THistoryBuffer` (std::map), `TMultiHistoryBuffer` (std::multimap) and
`TTimeHorizonBuffer`, all under source/ikf/include/ikf/Container/.
A container is the list of its (key, value) pairs in iteration order. An iterator is the suffix it
points to: `end()` is `[]`, `begin()` is the whole list. `HB` = THistoryBuffer.hpp, `MB` =
TMultiHistoryBuffer.hpp, `TH` = TTimeHorizonBuffer.hpp.
-/

namespace Ikf

/-- HB:43, MB:42: contents of the container in iteration order; keys are int64 nanoseconds. -/
abbrev Buf (α : Type _) := List (Int × α)

namespace Buf
variable {α : Type _}

/-! ## Operations whose source text is the same in both containers -/

/-- HB:219-223, MB:243-247 `lower_bound`: `std::lower_bound` over the sorted range, i.e. the first
position whose key is not less than `t` (binary search replaced by its result on a sorted range). -/
def lowerBound (b : Buf α) (t : Int) : Buf α := b.dropWhile (fun e => decide (e.1 < t))

/-- HB:213-217, MB:237-241 `upper_bound`: first position whose key is greater than `t`. -/
def upperBound (b : Buf α) (t : Int) : Buf α := b.dropWhile (fun e => !decide (t < e.1))

/-- The range `[begin, lower_bound(t))`. -/
def belowLB (b : Buf α) (t : Int) : Buf α := b.takeWhile (fun e => decide (e.1 < t))

/-- The range `[begin, upper_bound(t))`. -/
def belowUB (b : Buf α) (t : Int) : Buf α := b.takeWhile (fun e => !decide (t < e.1))

/-- HB:247-278, MB:282-291 `at`. -/
def at? (b : Buf α) (idx : Nat) : Option (Int × α) := if idx < b.length then b[idx]? else none

/-- HB:306-312, MB:313-319 `exist_at_t`. -/
def existAt (b : Buf α) (t : Int) : Bool :=
  if !b.isEmpty then (b.find? (fun e => e.1 == t)).isSome else false

/-- HB:315-323, MB:322-330 `exist_after_t`. -/
def existAfter (b : Buf α) (t : Int) : Bool :=
  if !b.isEmpty then
    match b.upperBound t with
    | [] => false
    | _ :: _ => true
  else false

/-- HB:342-366, MB:347-371 `get_oldest(_t)`. -/
def oldest (b : Buf α) : Option (Int × α) := b.head?

/-- HB:351-375, MB:356-381 `get_latest(_t)`. -/
def latest (b : Buf α) : Option (Int × α) := b.getLast?

/-- HB:378-401, MB:384-396 `get_at_t`: `find` (first element of that key). -/
def getAt (b : Buf α) (t : Int) : Option (Int × α) := b.find? (fun e => e.1 == t)

/-- HB:404-457, MB:399-455 `get_before_t` (all overloads return parts of the same element). -/
def getBefore (b : Buf α) (t : Int) : Option (Int × α) :=
  match b.lowerBound t with
  | _ :: _ =>
    if (b.belowLB t).isEmpty then none      -- it == begin()
    else (b.belowLB t).getLast?             -- --it
  | [] =>
    if b.length ≠ 0 then b.getLast? else none

/-- HB:460-488, MB:459-487 `get_after_t`. -/
def getAfter (b : Buf α) (t : Int) : Option (Int × α) := (b.upperBound t).head?

/-- HB:542-549, MB:490-497 `remove_at_t`: `erase(key)` removes every element of that key. -/
def removeAt (b : Buf α) (t : Int) : Buf α := b.filter (fun e => !(e.1 == t))

/-- HB:552-557, MB:500-505 `remove_before_t`. -/
def removeBefore (b : Buf α) (t : Int) : Buf α :=
  match b.lowerBound t with
  | [] => b
  | it => it

/-- HB:565-570, MB:513-518 `remove_after_t`. -/
def removeAfter (b : Buf α) (t : Int) : Buf α :=
  match b.upperBound t with
  | [] => b
  | _ :: _ => b.belowUB t

/-- The loop of HB:578-588 / MB:526-536: erase while counting. `N = 0` evaluates `cnt % 0`
(undefined behaviour) as soon as the loop body runs: `none`. -/
def removeEveryLoop (N : Nat) : Nat → Buf α → Option (Buf α)
  | _, [] => some []
  | cnt, e :: r =>
    if N = 0 then none
    else if cnt % N = 0 then removeEveryLoop N (cnt + 1) r
    else (removeEveryLoop N (cnt + 1) r).map (e :: ·)

/-- HB:578, MB:526 `remove_every_N`. -/
def removeEvery (b : Buf α) (N : Nat) : Option (Buf α) := removeEveryLoop N 0 b

/-- The loop of HB:591-602 / MB:539-549. -/
def subsampleLoop (N : Nat) : Nat → Buf α → Option (Buf α)
  | _, [] => some []
  | cnt, e :: r =>
    if N = 0 then none
    else if cnt % N ≠ 0 then subsampleLoop N (cnt + 1) r
    else (subsampleLoop N (cnt + 1) r).map (e :: ·)

/-- HB:591, MB:539 `subsample_by_N`. -/
def subsample (b : Buf α) (N : Nat) : Option (Buf α) := subsampleLoop N 0 b

/-- Elements in `[lower_bound(t1), upper_bound(t2))`, used by all range operations. -/
def range (b : Buf α) (t1 t2 : Int) : Buf α := (b.lowerBound t1).belowUB t2

/-! ## THistoryBuffer (std::map) -/

/-- HB:210 `buffer_[t.stamp_ns()] = elem`: overwrite or insert in key order. -/
def insertMap (b : Buf α) (k : Int) (v : α) : Buf α :=
  match b with
  | [] => [(k, v)]
  | e :: r =>
    if k < e.1 then (k, v) :: e :: r
    else if k == e.1 then (k, v) :: r
    else e :: insertMap r k v

/-- HB:286-298 `index_at_t`. -/
def indexAt (b : Buf α) (t : Int) : Option Nat :=
  if !b.isEmpty then b.findIdx? (fun e => e.1 == t) else none

/-- HB:326-339 `exist_before_t`. -/
def existBefore (b : Buf α) (t : Int) : Bool :=
  if !b.isEmpty then
    match b.lowerBound t with
    | _ :: _ => if !(b.belowLB t).isEmpty then true else false
    | [] => if b.length ≠ 0 then true else false
  else false

/-- HB:70-79 `get_between_t1_t2`. Note the strict comparison of the bounds. -/
def betweenMap (b : Buf α) (t1 t2 : Int) : Buf α :=
  if t1 < t2 ∧ 0 < b.length then b.range t1 t2 else []

/-- HB:106-113 `foreach_between_t1_t2`: the elements visited, in order. -/
def visitMap (b : Buf α) (t1 t2 : Int) : List α :=
  if t1 ≤ t2 ∧ 0 < b.length then (b.range t1 t2).map (·.2) else []

/-- HB:87-95 `accumulate_between_t1_t2`. -/
def accumulateMap (b : Buf α) (t1 t2 : Int) (init : α) (op : α → α → α) : α :=
  if t1 ≤ t2 ∧ 0 < b.length then (b.range t1 t2).foldl (fun a e => op a e.2) init else init

/-- HB:511-539 `get_closest_t`. `t` is the query; distances are `Timestamp` differences computed in
doubles. `key t` is `t.stamp_ns()`. -/
def getClosest (fp : FP) (b : Buf α) (t : Timestamp) (key : Int) : Option (Int × α) :=
  if b.isEmpty then none
  else if b.existAt key then b.getAt key
  else if b.existAfter key && b.existBefore key then
    match b.getBefore key, b.getAfter key with
    | some eb, some ea =>
      if Timestamp.lt (fp.sub t (Timestamp.ofStampNs eb.1)) (fp.sub (Timestamp.ofStampNs ea.1) t)
      then b.getBefore key
      else b.getAfter key
    | _, _ => none
  else if b.existAfter key && !b.existBefore key then b.getAfter key
  else if !b.existAfter key && b.existBefore key then b.getBefore key
  else none

/-! ## TMultiHistoryBuffer (std::multimap) -/

/-- MB:229-234,253-274 `insert`: C++11 `multimap::insert` puts the element after all equal keys. -/
def insertMulti (b : Buf α) (k : Int) (v : α) : Buf α :=
  match b with
  | [] => [(k, v)]
  | e :: r => if k < e.1 then (k, v) :: e :: r else e :: insertMulti r k v

/-- MB:299-305 `index_at_t`: returns the value of the `return` statement and the written index. -/
def indexAtMulti (b : Buf α) (t : Int) : Bool × Option Nat :=
  if b.existAt t then (false, b.findIdx? (fun e => e.1 == t)) else (false, none)

/-- MB:333-344 `exist_before_t`. -/
def existBeforeMulti (b : Buf α) (t : Int) : Bool :=
  if !b.isEmpty then
    match b.lowerBound t with
    | e :: _ => if e.1 == t then !(b.belowLB t).isEmpty else true
    | [] => false
  else false

/-- `std::set<int64_t>::insert`. -/
def setInsert (s : List Int) (k : Int) : List Int :=
  match s with
  | [] => [k]
  | x :: r => if k < x then k :: x :: r else if k == x then x :: r else x :: setInsert r k

/-- MB:118-128 `get_timestamps_between_t1_t2`. -/
def stampsBetween (b : Buf α) (t1 t2 : Int) : List Int :=
  if t1 ≤ t2 ∧ 0 < b.length then (b.range t1 t2).foldl (fun s e => setInsert s e.1) [] else []

/-- MB `equal_range(key)`. -/
def equalRange (b : Buf α) (k : Int) : Buf α := b.filter (fun e => e.1 == k)

/-- MB:173-182 `get_all_at_t`. -/
def getAllAt (b : Buf α) (t : Int) : List α :=
  if b.existAt t then (b.equalRange t).map (·.2) else []

/-- MB:131-142 `foreach_between_t1_t2`: the elements visited, in order. -/
def visitMulti (b : Buf α) (t1 t2 : Int) : List α :=
  if t1 ≤ t2 ∧ 0 < b.length then
    (b.stampsBetween t1 t2).flatMap (fun k => (b.equalRange k).map (·.2))
  else []

/-- MB:94-107 `accumulate_between_t1_t2`. -/
def accumulateMulti (b : Buf α) (t1 t2 : Int) (init : α) (op : α → α → α) : α :=
  if t1 ≤ t2 ∧ 0 < b.length then
    (b.stampsBetween t1 t2).foldl
      (fun acc k => (b.equalRange k).foldl (fun a e => op a e.2) acc) init
  else init

/-- MB:72-86 `get_between_t1_t2`. -/
def betweenMulti (b : Buf α) (t1 t2 : Int) : Buf α :=
  if t1 ≤ t2 ∧ 0 < b.length then
    (b.stampsBetween t1 t2).foldl
      (fun h k => (b.equalRange k).foldl (fun h e => h.insertMulti e.1 e.2) h) []
  else []

/-! ## TTimeHorizonBuffer -/

/-- Seconds (double) of a stored key: `Timestamp(key).to_sec()`. -/
def _root_.Ikf.FP.secOfKey (fp : FP) (k : Int) : ℚ := fp.toSec (Timestamp.ofStampNs k)

/-- TH:46-55 `horizon()`. -/
def horizon (fp : FP) (b : Buf α) : ℚ :=
  if 1 < b.length then
    match b.oldest, b.latest with
    | some o, some l => fp.rnd (fp.secOfKey l.1 - fp.secOfKey o.1)
    | _, _ => 0
  else 0

/-- `Timestamp(t_sec - max).stamp_ns()`: key of the cut time of TH:62,69,78. `from_sec` never
exceeds 8589934592 s, so only the regular branch of `stamp_ns` applies. -/
def _root_.Ikf.FP.cutKey (fp : FP) (tsec max : ℚ) : Int := (fp.fromSec (fp.rnd (tsec - max))).ns

/-- TH:57-65 `check_horizon`. -/
def checkHorizon (fp : FP) (max : ℚ) (b : Buf α) : Buf α :=
  if 0 < b.length ∧ max < b.horizon fp then
    match b.latest with
    | some l => b.removeBefore (fp.cutKey (fp.secOfKey l.1) max)
    | none => b
  else b

/-- TH:67-72 `check_horizon_from_t`; `tsec` is `t.to_sec()`. -/
def checkHorizonFrom (fp : FP) (max : ℚ) (b : Buf α) (tsec : ℚ) : Buf α :=
  if 0 < b.length then b.removeBefore (fp.cutKey tsec max) else b

/-- TH:74-81 `check_horizon_restricted`. -/
def checkHorizonRestricted (fp : FP) (max : ℚ) (b : Buf α) (n : Nat) : Buf α :=
  if n < b.length ∧ max < b.horizon fp then
    match b.latest with
    | some l => b.removeBefore (fp.cutKey (fp.secOfKey l.1) max)
    | none => b
  else b

end Buf
end Ikf
