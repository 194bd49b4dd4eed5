import Mathlib.Data.List.Basic

/-!
# ObservableMatrix

Source: `/repo/include/qlpeps/utility/observable_matrix.h`.

Simplifications: sizes are natural numbers (no overflow of `rows * cols`); a call that throws is `none`.
-/

namespace QLPeps.ObsMatrix

variable {T : Type*}

/-- the members `rows_`, `cols_` and `data_` (observable_matrix.h:82-84) -/
structure Mat (T : Type*) where
  rows : ℕ
  cols : ℕ
  data : List T

/-- the default constructor (observable_matrix.h:27, 82-84) -/
def empty : Mat T := ⟨0, 0, []⟩

/-- the constructor with sizes (observable_matrix.h:29-30) and `Resize` (observable_matrix.h:32-36) -/
def resize (rows cols : ℕ) (v : T) : Mat T := ⟨rows, cols, List.replicate (rows * cols) v⟩

/-- `Index` (observable_matrix.h:75-80) -/
def index (m : Mat T) (row col : ℕ) : Option ℕ :=
  if row ≥ m.rows ∨ col ≥ m.cols then none else some (row * m.cols + col)

/-- `operator()` (observable_matrix.h:42-56), read -/
def get (m : Mat T) (row col : ℕ) : Option T :=
  match index m row col with
  | none => none
  | some k => m.data[k]?

/-- `operator()` (observable_matrix.h:42-56), an assignment to the reference -/
def put (m : Mat T) (row col : ℕ) (v : T) : Option (Mat T) :=
  match index m row col with
  | none => none
  | some k => if k < m.data.length then some { m with data := m.data.set k v } else none

/-- `Add` (observable_matrix.h:58-65) -/
def add [Add T] (m : Mat T) (row col : ℕ) (delta : T) : Option (Mat T) :=
  match get m row col with
  | none => none
  | some x => put m row col (x + delta)

/-- `Flatten` (observable_matrix.h:67) -/
def flatten (m : Mat T) : List T := m.data

/-- `size` (observable_matrix.h:40) -/
def size (m : Mat T) : ℕ := m.data.length

/-- `Extract` (observable_matrix.h:69-71): the returned vector is constructed by a move, which leaves `data_` empty -/
def extract (m : Mat T) : List T × Mat T := (m.data, { m with data := [] })

/-- a call of a member -/
inductive Call (T : Type*) where
  | resize (rows cols : ℕ) (v : T)
  | put (row col : ℕ) (v : T)
  | add (row col : ℕ) (delta : T)
  | extract

/-- a call, with the exceptions caught by the caller: a call that throws leaves the object as it is
(`Index` and `at` throw before anything is written, observable_matrix.h:43, 77) -/
def call [Add T] (m : Mat T) : Call T → Mat T
  | .resize r c v => resize r c v
  | .put r c v => (put m r c v).getD m
  | .add r c d => (add m r c d).getD m
  | .extract => (extract m).2

/-- a history of calls -/
def calls [Add T] (m : Mat T) (hs : List (Call T)) : Mat T := hs.foldl call m

end QLPeps.ObsMatrix
