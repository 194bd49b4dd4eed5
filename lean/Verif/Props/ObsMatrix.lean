import Verif.Spec.ObsMatrix
import Mathlib.Data.Complex.Basic
import Mathlib.Tactic.Ring
import Mathlib.Tactic.Linarith

/-!
# Lattices of observables

C151.
-/

namespace QLPeps.ObsMatrix

open Spec

variable {T : Type*}

theorem sites_length (R C : ℕ) : (sites R C).length = R * C := by
  simp [sites, List.length_flatMap]

theorem sites_get (R C : ℕ) {r c : ℕ} (hr : r < R) (hc : c < C) : (sites R C)[r * C + c]? = some (r, c) := by
  induction R with
  | zero => omega
  | succ R ih =>
    have hs : sites (R + 1) C = sites R C ++ (List.range C).map fun c => (R, c) := by
      simp [sites, List.range_succ, List.flatMap_append]
    rw [hs]
    rcases Nat.lt_or_ge r R with h | h
    · rw [List.getElem?_append_left, ih h]
      rw [sites_length]
      calc r * C + c < r * C + C := by omega
        _ = (r + 1) * C := by ring
        _ ≤ R * C := Nat.mul_le_mul_right _ h
    · obtain rfl : r = R := by omega
      rw [List.getElem?_append_right (by rw [sites_length]; omega), sites_length, Nat.add_sub_cancel_left]
      simp [List.getElem?_map, List.getElem?_range hc]

theorem lt_size {R C r c : ℕ} (hr : r < R) (hc : c < C) : r * C + c < R * C :=
  calc r * C + c < r * C + C := by omega
    _ = (r + 1) * C := by ring
    _ ≤ R * C := Nat.mul_le_mul_right _ hr

theorem index_inj {C r c r' c' : ℕ} (hc : c < C) (hc' : c' < C) (h : r * C + c = r' * C + c') : (r, c) = (r', c') := by
  have h1 : (r * C + c) / C = r := by rw [Nat.mul_comm, Nat.mul_add_div (by omega), Nat.div_eq_of_lt hc, Nat.add_zero]
  have h2 : (r' * C + c') / C = r' := by rw [Nat.mul_comm, Nat.mul_add_div (by omega), Nat.div_eq_of_lt hc', Nat.add_zero]
  have : r = r' := by rw [← h1, ← h2, h]
  subst this
  have : c = c' := by omega
  rw [this]

/-- a matrix holds the values of a lattice -/
def Holds (m : Mat T) (l : Grid T) : Prop :=
  m.rows = l.rows ∧ m.cols = l.cols ∧ m.data = if l.full then (sites l.rows l.cols).map l.val else []

theorem mem_sites {R C : ℕ} {k : ℕ} (hk : k < R * C) : ∃ r c, r < R ∧ c < C ∧ k = r * C + c := by
  have hC : 0 < C := Nat.pos_of_ne_zero fun h => by simp [h] at hk
  refine ⟨k / C, k % C, Nat.div_lt_of_lt_mul (by rwa [Nat.mul_comm]), Nat.mod_lt _ hC, ?_⟩
  rw [Nat.mul_comm]; exact (Nat.div_add_mod k C).symm

theorem set_sites (l : Grid T) {r c : ℕ} (hr : r < l.rows) (hc : c < l.cols) (v : T) :
    ((sites l.rows l.cols).map l.val).set (r * l.cols + c) v =
      (sites l.rows l.cols).map fun s => if s = (r, c) then v else l.val s := by
  refine List.ext_getElem? fun k => ?_
  rcases Nat.lt_or_ge k (l.rows * l.cols) with hk | hk
  · obtain ⟨r', c', h1, h2, rfl⟩ := mem_sites hk
    rw [List.getElem?_map, sites_get _ _ h1 h2, List.getElem?_set]
    split_ifs with h3 h4
    · have := index_inj hc h2 h3
      simp [this]
    · rw [List.length_map, sites_length] at h4
      exact absurd (lt_size hr hc) h4
    · have : ¬(r', c') = (r, c) := fun h => h3 (by obtain ⟨rfl, rfl⟩ := Prod.mk.inj h; rfl)
      rw [List.getElem?_map, sites_get _ _ h1 h2]
      simp only [Option.map_some, if_neg this]
  · rw [List.getElem?_eq_none (by simpa [sites_length] using hk), List.getElem?_eq_none (by simpa [sites_length] using hk)]

theorem sites_out {R C r c : ℕ} (h : r ≥ R ∨ c ≥ C) {s : ℕ × ℕ} (hs : s ∈ sites R C) : s ≠ (r, c) := by
  rintro rfl
  simp only [sites, List.mem_flatMap, List.mem_map, List.mem_range] at hs
  obtain ⟨a, ha, b, hb, e⟩ := hs
  obtain ⟨rfl, rfl⟩ := Prod.mk.inj e
  omega

theorem get_holds {m : Mat T} {l : Grid T} (h : Holds m l) (r c : ℕ) :
    get m r c = if l.full ∧ r < l.rows ∧ c < l.cols then some (l.val (r, c)) else none := by
  obtain ⟨h1, h2, h3⟩ := h
  rw [get, index, h1, h2]
  by_cases hr : r ≥ l.rows ∨ c ≥ l.cols
  · rw [if_pos hr, if_neg (fun h => hr.elim (Nat.not_le.2 h.2.1) (Nat.not_le.2 h.2.2))]
  · push Not at hr
    rw [if_neg (by omega), h3]
    cases hl : l.full
    · simp
    · simp [hr, sites_get _ _ hr.1 hr.2]

theorem put_holds {m : Mat T} {l : Grid T} (h : Holds m l) (r c : ℕ) (f : T → T) :
    (l.full ∧ r < l.rows ∧ c < l.cols → ∃ m', put m r c (f (l.val (r, c))) = some m' ∧
      Holds m' { l with val := fun s => if s = (r, c) then f (l.val s) else l.val s }) ∧
    (¬(l.full ∧ r < l.rows ∧ c < l.cols) → (∀ v, put m r c v = none) ∧
      Holds m { l with val := fun s => if s = (r, c) then f (l.val s) else l.val s }) := by
  obtain ⟨h1, h2, h3⟩ := h
  refine ⟨fun ⟨hl, hr, hc⟩ => ?_, fun hn => ?_⟩
  · rw [hl, if_pos rfl] at h3
    refine ⟨{ m with data := m.data.set (r * l.cols + c) (f (l.val (r, c))) }, ?_, h1, h2, ?_⟩
    · rw [put, index, h1, h2, if_neg (by omega)]
      simp only
      rw [if_pos (by rw [h3, List.length_map, sites_length]; exact lt_size hr hc)]
    · simp only [hl, if_true, h3]
      rw [set_sites l hr hc]
      refine List.map_congr_left fun s _ => ?_
      split_ifs with e
      · rw [e]
      · rfl
  · by_cases hr : r ≥ l.rows ∨ c ≥ l.cols
    · refine ⟨fun v => by rw [put, index, h1, h2, if_pos hr], h1, h2, ?_⟩
      rw [h3]
      cases l.full
      · rfl
      · simp only [if_true]
        exact List.map_congr_left fun s hs => by rw [if_neg (sites_out hr hs)]
    · push Not at hr
      have hl : l.full = false := by
        cases hl : l.full
        · rfl
        · exact absurd ⟨hl, hr⟩ hn
      rw [hl] at h3
      refine ⟨fun v => ?_, h1, h2, ?_⟩
      · rw [put, index, h1, h2, if_neg (by omega)]
        simp [h3]
      · rw [h3]; simp [hl]

theorem call_holds [Add T] {m : Mat T} {l : Grid T} (h : Holds m l) (q : Call T) : Holds (call m q) (after l q) := by
  cases q with
  | resize r c v =>
    refine ⟨rfl, rfl, ?_⟩
    simp only [call, resize, after, if_true]
    symm
    refine List.eq_replicate_iff.2 ⟨by rw [List.length_map, sites_length], fun x hx => ?_⟩
    obtain ⟨_, _, rfl⟩ := List.mem_map.1 hx
    rfl
  | put r c v =>
    obtain ⟨h1, h2⟩ := put_holds h r c fun _ => v
    by_cases hc : l.full ∧ r < l.rows ∧ c < l.cols
    · obtain ⟨m', e, e'⟩ := h1 hc
      rw [call, e]; exact e'
    · rw [call, (h2 hc).1]; exact (h2 hc).2
  | add r c d =>
    obtain ⟨h1, h2⟩ := put_holds h r c fun x => x + d
    by_cases hc : l.full ∧ r < l.rows ∧ c < l.cols
    · obtain ⟨m', e, e'⟩ := h1 hc
      rw [call, add, get_holds h, if_pos hc]
      simp only
      rw [e]; exact e'
    · rw [call, add, get_holds h, if_neg hc]; exact (h2 hc).2
  | extract => exact ⟨h.1, h.2.1, rfl⟩

/-- C151: For every history of calls on an `ObservableMatrix`, starting from one that holds the value `v` on every site, with
exceptions caught, let `l` be the grid of values after the same calls. A site inside of it reads as its value, unless the
values have been extracted since the last `Resize`; every other access throws. `Flatten` (and
`Extract`) list the values in the order of rows. After `Extract`, the matrix is empty, although `rows` and `cols` are those of
before, and each access throws until the next `Resize`. -/
theorem lattice_of_calls [Add T] (R C : ℕ) (v : T) (hs : List (Call T)) (l : Grid T)
    (hl : l = hs.foldl after ⟨R, C, true, fun _ => v⟩) :
    (calls (resize R C v) hs).rows = l.rows ∧ (calls (resize R C v) hs).cols = l.cols ∧
    (∀ r c, get (calls (resize R C v) hs) r c = if l.full ∧ r < l.rows ∧ c < l.cols then some (l.val (r, c)) else none) ∧
    flatten (calls (resize R C v) hs) = (if l.full then (sites l.rows l.cols).map l.val else []) ∧
    (extract (calls (resize R C v) hs)).1 = (if l.full then (sites l.rows l.cols).map l.val else []) ∧
    size (calls (resize R C v) hs) = (if l.full then l.rows * l.cols else 0) ∧
    (∀ r c d, (add (calls (resize R C v) hs) r c d).isSome ↔ l.full ∧ r < l.rows ∧ c < l.cols) := by
  have h : Holds (calls (resize R C v) hs) l := by
    subst hl
    have h0 : Holds (resize R C v) ⟨R, C, true, fun _ => v⟩ := call_holds (m := empty) (l := ⟨0, 0, true, fun _ => v⟩)
      ⟨rfl, rfl, rfl⟩ (.resize R C v)
    rw [calls]
    generalize resize R C v = m at h0 ⊢
    generalize (⟨R, C, true, fun _ => v⟩ : Grid T) = l at h0 ⊢
    induction hs generalizing m l with
    | nil => exact h0
    | cons q hs ih => exact ih _ _ (call_holds h0 q)
  refine ⟨h.1, h.2.1, get_holds h, h.2.2, h.2.2, ?_, fun r c d => ?_⟩
  · rw [size, h.2.2]
    split_ifs
    · rw [List.length_map, sites_length]
    · rfl
  · obtain ⟨h1, -⟩ := put_holds h r c fun x => x + d
    rw [add, get_holds h]
    by_cases hc : l.full ∧ r < l.rows ∧ c < l.cols
    · obtain ⟨m', e, -⟩ := h1 hc
      simp only [if_pos hc]
      rw [e]
      exact ⟨fun _ => hc, fun _ => rfl⟩
    · simp only [if_neg hc]
      exact ⟨fun h => by simp at h, fun h => absurd h hc⟩

/-- sites are listed in the order of rows, and accumulated values are not mixed up -/
example : flatten (calls (resize 2 3 (0 : ℕ)) [.add 1 0 5, .put 0 2 7, .add 1 0 1, .add 2 0 9, .add 0 3 9]) = [0, 0, 7, 6, 0, 0] := by
  rw [(lattice_of_calls 2 3 0 _ _ rfl).2.2.2.1]
  rfl

/-- after `Extract` nothing can be read until `Resize` -/
example : get (calls (resize 2 3 (1 : ℕ)) [.extract]) 0 0 = none ∧ get (calls (resize 2 3 (1 : ℕ)) [.extract, .resize 1 1 4]) 0 0 = some 4 := by
  refine ⟨?_, ?_⟩
  · rw [(lattice_of_calls 2 3 1 _ _ rfl).2.2.1]; rfl
  · rw [(lattice_of_calls 2 3 1 _ _ rfl).2.2.1]; rfl

end QLPeps.ObsMatrix
