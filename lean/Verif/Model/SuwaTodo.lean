import Mathlib.Algebra.Order.Field.Basic
import Mathlib.Data.List.Basic

/-!
# Model of `SuwaTodoStateUpdate`

Source: `/repo/include/qlpeps/vmc_basic/monte_carlo_tools/suwa_todo_update.h`.

Simplifications: `double` / `long double` are an arbitrary linearly ordered
field `K` (exact arithmetic); the draw `uniform_real_distribution(start,
nextafter(start + w_i, start))` of lines 97-101 is `start + u * w_i` for an
argument `u` which the caller takes in `[0, 1)`.
-/

namespace QLPeps.SuwaTodo

variable {K : Type*} [Field K] [LinearOrder K]

/-- `std::max_element` (suwa_todo_update.h:68-69): position of the first largest
entry. `best` is the position and `bestVal` the value found so far, `pos` is the
position of the head of the list; the candidate replaces the best only when it
is strictly larger, as in the C++ standard algorithm. -/
def maxElementAux (best : ℕ) (bestVal : K) (pos : ℕ) : List K → ℕ
  | [] => best
  | a :: l => if bestVal < a then maxElementAux pos a (pos + 1) l
              else maxElementAux best bestVal (pos + 1) l

/-- suwa_todo_update.h:68-69, `max_weight_id`. -/
def maxWeightId : List K → ℕ
  | [] => 0
  | a :: l => maxElementAux 0 a 1 l

/-- suwa_todo_update.h:73-75: `std::swap(weights[0], weights[m])`.
Written for in-range `m`; `List.set` outside the range is the identity. -/
def swapFront (w : List K) (m : ℕ) : List K :=
  match w[0]?, w[m]? with
  | some a, some b => (w.set 0 b).set m a
  | _, _ => w

/-- suwa_todo_update.h:76-80 and 105-111: the relabelling of a state index under
the swap of positions `0` and `m`. -/
def relabel (m i : ℕ) : ℕ :=
  if i = m then 0 else if i = 0 then m else i

/-- suwa_todo_update.h:82-86: prefix sums `s[k] = w[0] + ... + w[k]`. -/
def prefixSums (acc : K) : List K → List K
  | [] => []
  | a :: l => (acc + a) :: prefixSums (acc + a) l

/-- suwa_todo_update.h:95 and 102: `if (x >= S) x -= S;`. -/
def wrapOnce (S x : K) : K := if S ≤ x then x - S else x

/-- suwa_todo_update.h:104: `std::upper_bound(s.begin(), s.end(), x) - s.begin()`,
the position of the first element greater than `x` (`s.size()` if none). -/
def upperBound (s : List K) (x : K) : ℕ := s.findIdx (fun a => decide (x < a))

/-- suwa_todo_update.h:82-104 after the swap: from the (relabelled) current
state `i` and the random number `u` to the (relabelled) final state. -/
def ringStep (w : List K) (w0 wi : K) (i : ℕ) (u : K) : ℕ :=
  let s := prefixSums 0 w
  let S := w.sum
  let sPrev := if i = 0 then 0 else s.getD (i - 1) 0
  let start := wrapOnce S (sPrev + w0)
  let x := wrapOnce S (start + u * wi)
  upperBound s x

/-- `SuwaTodoStateUpdate` (suwa_todo_update.h:53-113). `none` is the undefined
behaviour of indexing outside `weights` (empty weights or `init_state >= n`,
which release builds do not check). -/
def suwaTodo (w : List K) (init : ℕ) (u : K) : Option ℕ :=
  if init < w.length then
    let m := maxWeightId w
    let v := if m ≠ 0 then swapFront w m else w
    let i := relabel m init
    match v[0]?, v[i]? with
    | some v0, some vi =>
      let j := ringStep v v0 vi i u
      some (if m ≠ 0 then relabel m j else j)
    | _, _ => none
  else none

end QLPeps.SuwaTodo
