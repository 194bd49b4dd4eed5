import Mathlib.Tactic
import Verif.Spec.Observables
import Verif.Props.Statistics

/-! # Lemmas about the observable registry -/

namespace QLPeps.Observables

open QLPeps.Statistics

variable {K : Type*}

/-- keys with the number of values -/
def lens (m : ObsMap K) : List (String × ℕ) := m.map (fun e => (e.1, e.2.length))

theorem lens_put (m : ObsMap K) (k : String) (l : List K) :
    lens (put m k l) = put (lens m) k l.length := by
  unfold lens put
  rw [List.map_append, List.filter_map]
  rfl

def putNZ (m : List (String × ℕ)) (k : String) (n : ℕ) : List (String × ℕ) :=
  if n = 0 then m else put m k n

theorem lens_putNonempty (m : ObsMap K) (k : String) (l : List K) :
    lens (putNonempty m k l) = putNZ (lens m) k l.length := by
  unfold putNonempty putNZ
  cases l with
  | nil => simp
  | cons a l => simp [lens_put]

theorem lens_erase (m : ObsMap K) (k : String) : lens (eraseKey m k) = eraseKey (lens m) k := by
  unfold lens eraseKey
  rw [List.filter_map]; rfl

theorem matrix_length (r c : ℕ) (f : ℕ → ℕ → K) : (matrix r c f).length = r * c := by
  unfold matrix
  rw [List.length_flatMap]
  simp

theorem matrix_get (r c : ℕ) (f : ℕ → ℕ → K) (y x : ℕ) (hy : y < r) (hx : x < c) (d : K) :
    (matrix r c f).getD (y * c + x) d = f y x := by
  induction r generalizing y f with
  | zero => omega
  | succ r ih =>
    unfold matrix
    rw [List.range_succ_eq_map, List.flatMap_cons, List.flatMap_map]
    cases y with
    | zero =>
      rw [List.getD_eq_getElem?_getD, List.getElem?_append_left (by simpa using hx)]
      simp [hx]
    | succ y =>
      have := ih (fun y => f (y + 1)) y (by omega)
      rw [List.getD_eq_getElem?_getD] at this ⊢
      rw [List.getElem?_append_right (by simp; rw [Nat.succ_mul]; omega)]
      rw [List.length_map, List.length_range, show (y + 1) * c + x - c = y * c + x by rw [Nat.succ_mul]; omega]
      exact this

theorem mem_put {α : Type*} (m : List (String × α)) (k : String) (a : α) (e : String × α) :
    e ∈ put m k a ↔ (e ∈ m ∧ e.1 ≠ k) ∨ e = (k, a) := by
  unfold put; simp

theorem mem_putNZ (m : List (String × ℕ)) (k : String) (n : ℕ) (e : String × ℕ) :
    e ∈ putNZ m k n ↔ (e ∈ m ∧ (e.1 ≠ k ∨ n = 0)) ∨ (e = (k, n) ∧ n ≠ 0) := by
  unfold putNZ
  by_cases h : n = 0
  · simp [h]
  · simp [h, mem_put]

theorem nodup_put {α : Type*} (m : List (String × α)) (k : String) (a : α) (h : (m.map Prod.fst).Nodup) :
    ((put m k a).map Prod.fst).Nodup := by
  unfold put
  rw [List.map_append, List.nodup_append]
  refine ⟨h.sublist (List.Sublist.map _ List.filter_sublist), by simp, ?_⟩
  intro a ha b hb
  simp only [List.map_cons, List.map_nil, List.mem_singleton] at hb
  obtain ⟨e, he, rfl⟩ := List.mem_map.1 ha
  have := (List.mem_filter.1 he).2
  subst hb
  simpa using this

theorem nodup_putNZ (m : List (String × ℕ)) (k : String) (n : ℕ) (h : (m.map Prod.fst).Nodup) :
    ((putNZ m k n).map Prod.fst).Nodup := by
  unfold putNZ
  split_ifs
  · exact h
  · exact nodup_put m k n h

theorem nodup_erase {α : Type*} (m : List (String × α)) (k : String) (h : (m.map Prod.fst).Nodup) :
    ((eraseKey m k).map Prod.fst).Nodup :=
  h.sublist (List.Sublist.map _ List.filter_sublist)

/-! ## Emitted keys and lengths do not depend on the sample -/

def hookLens (ly lx row : ℕ) (out : List (String × ℕ)) : List (String × ℕ) :=
  if ly = 0 ∨ lx = 0 then out
  else if row ≠ ly / 2 then out
  else putNZ (putNZ out "SmSp_row" (lx / 2)) "SpSm_row" (lx / 2)

theorem lens_hook [Zero K] (ly lx row : ℕ) (v : Vals K) (out : ObsMap K) :
    lens (offDiagHook ly lx v row out) = hookLens ly lx row (lens out) := by
  unfold offDiagHook hookLens
  by_cases h1 : ly = 0 ∨ lx = 0
  · rw [if_pos h1, if_pos h1]
  · rw [if_neg h1, if_neg h1]
    by_cases h2 : row ≠ ly / 2
    · rw [if_pos h2, if_pos h2]
    · rw [if_neg h2, if_neg h2]
      dsimp only
      rw [lens_putNonempty, lens_putNonempty]
      congr 1
      · congr 1; split_ifs <;> simp
      · split_ifs <;> simp

theorem foldl_single {α : Type*} (n r : ℕ) (hr : r < n) (f : ℕ → α → α) (hf : ∀ i, i ≠ r → ∀ a, f i a = a)
    (a : α) : (List.range n).foldl (fun o i => f i o) a = f r a := by
  have : ∀ n a, (List.range n).foldl (fun o i => f i o) a = if r < n then f r a else a := by
    intro n
    induction n with
    | zero => intro a; simp
    | succ n ih =>
      intro a
      rw [List.range_succ, List.foldl_append, ih]
      simp only [List.foldl_cons, List.foldl_nil]
      by_cases h : r = n
      · subst h; simp
      · rw [hf n (Ne.symm h)]
        by_cases h' : r < n
        · rw [if_pos h', if_pos (by omega)]
        · rw [if_neg h', if_neg (by omega)]
  rw [this, if_pos hr]

theorem fold_hook [Zero K] (ly lx : ℕ) (v : Vals K) (hly : 0 < ly) (out : ObsMap K) :
    (List.range ly).foldl (fun o row => offDiagHook ly lx v row o) out = offDiagHook ly lx v (ly / 2) out := by
  apply foldl_single ly (ly / 2) (by omega)
  intro i hi a
  unfold offDiagHook
  split_ifs <;> rfl

theorem fold_id {α : Type*} (l : List ℕ) (a : α) : l.foldl (fun o _ => o) a = a := by
  induction l with
  | nil => rfl
  | cons x l ih => exact ih

def baseLens (spin charge nnn sc : Bool) (ly lx : ℕ) (hook : List (String × ℕ) → List (String × ℕ)) :
    List (String × ℕ) :=
  let out : List (String × ℕ) := []
  let out := if spin then put out "spin_z" (ly * lx) else out
  let out := if charge then put out "charge" (ly * lx) else out
  let out := hook out
  let out := put out "energy" 1
  let out := putNZ out "bond_energy_h" (ly * (lx - 1))
  let out := putNZ out "bond_energy_v" ((ly - 1) * lx)
  let out := if nnn then putNZ (putNZ out "bond_energy_dr" ((ly - 1) * (lx - 1))) "bond_energy_ur"
    ((ly - 1) * (lx - 1)) else out
  if sc then putNZ (putNZ out "SC_bond_singlet_h" (ly * (lx - 1))) "SC_bond_singlet_v" ((ly - 1) * lx) else out

theorem ite_matrix (p : Prop) [Decidable p] (r c : ℕ) (f : ℕ → ℕ → K) (h : ¬ p → r * c = 0) :
    (if p then matrix r c f else []).length = r * c := by
  by_cases hp : p
  · rw [if_pos hp, matrix_length]
  · rw [if_neg hp, h hp]; rfl

theorem lens_base (spin charge nnn sc : Bool) (ly lx : ℕ) (v : Vals K) (hook : ℕ → ObsMap K → ObsMap K)
    (hk : List (String × ℕ) → List (String × ℕ))
    (hh : ∀ o, lens ((List.range ly).foldl (fun o row => hook row o) o) = hk (lens o)) :
    lens (evalBase spin charge nnn sc ly lx v hook) = baseLens spin charge nnn sc ly lx hk := by
  have e1 : ∀ f : ℕ → ℕ → K, (if lx > 1 then matrix ly (lx - 1) f else []).length = ly * (lx - 1) := fun f =>
    ite_matrix _ _ _ _ (fun h => by rw [show lx - 1 = 0 by omega, Nat.mul_zero])
  have e2 : ∀ f : ℕ → ℕ → K, (if ly > 1 then matrix (ly - 1) lx f else []).length = (ly - 1) * lx := fun f =>
    ite_matrix _ _ _ _ (fun h => by rw [show ly - 1 = 0 by omega, Nat.zero_mul])
  have e3 : ∀ f : ℕ → ℕ → K, (if lx > 1 ∧ ly > 1 then matrix (ly - 1) (lx - 1) f else []).length
      = (ly - 1) * (lx - 1) := fun f =>
    ite_matrix _ _ _ _ (fun h => by
      rcases not_and_or.1 h with h | h
      · rw [show lx - 1 = 0 by omega, Nat.mul_zero]
      · rw [show ly - 1 = 0 by omega, Nat.zero_mul])
  unfold evalBase baseLens
  cases spin <;> cases charge <;> cases nnn <;> cases sc <;>
    simp only [if_true, if_false, Bool.false_eq_true, true_and, false_and, lens_putNonempty, lens_put, hh, e1, e2, e3,
      matrix_length, List.length_cons, List.length_nil, Nat.zero_add] <;> rfl

theorem szszAll_length_eq [Field K] (l l' : List K) (h : l.length = l'.length) :
    (szszAll l).length = (szszAll l').length := by
  unfold szszAll
  simp only [List.length_flatMap, List.length_map, List.length_range]
  rw [h]

theorem szszAll_length [Field K] (l : List K) : (szszAll l).length = l.length * (l.length + 1) / 2 := by
  unfold szszAll
  simp only [List.length_flatMap, List.length_map, List.length_range]
  have h2 : ∀ n m, n ≤ m → 2 * ((List.range n).map (fun i => m - i)).sum + n * n = (2 * m + 1) * n := by
    intro n m
    induction n with
    | zero => intro _; simp
    | succ n ih =>
      intro hnm
      have := ih (by omega)
      rw [List.range_succ, List.map_append, List.sum_append]
      simp only [List.map_cons, List.map_nil, List.sum_cons, List.sum_nil]
      obtain ⟨d, rfl⟩ : ∃ d, m = n + 1 + d := ⟨m - (n + 1), by omega⟩
      rw [show n + 1 + d - n = d + 1 by omega]
      nlinarith
  have := h2 l.length l.length le_rfl
  symm
  apply Nat.div_eq_of_eq_mul_left (by norm_num)
  nlinarith

def sfLen (ly lx : ℕ) : ℕ :=
  ((List.range (ly - 1)).map (fun y1 => lx * ((ly - (y1 + 1)) * (lx * 5)))).sum

theorem sf_length [Field K] (ly lx h : ℕ) (v : Vals K) : (structureFactor ly lx h v).length = sfLen ly lx := by
  unfold structureFactor sfLen
  simp [List.length_flatMap]

theorem sfLen_pos (ly lx : ℕ) (hy : 2 ≤ ly) (hx : 1 ≤ lx) : sfLen ly lx ≠ 0 := by
  unfold sfLen
  rw [show ly - 1 = (ly - 2) + 1 by omega, List.range_succ_eq_map, List.map_cons, List.sum_cons]
  have : 0 < lx * ((ly - (0 + 1)) * (lx * 5)) := by
    have : 0 < ly - (0 + 1) := by omega
    positivity
  omega

/-- the keys and lengths a solver emits -/
def skeleton (s : Solver) (ly lx : ℕ) : Option (List (String × ℕ)) :=
  match s with
  | .xxz sf =>
    let out := baseLens true false false false ly lx (hookLens ly lx (ly / 2))
    let out := put out "SzSz_all2all" (ly * lx * (ly * lx + 1) / 2)
    some (if sf then putNZ out "SpSm_cross" (sfLen ly lx) else out)
  | .j1j2 => some (baseLens true false true false ly lx (hookLens ly lx (ly / 2)))
  | .triangle sf =>
    let out := baseLens true false true false ly lx (hookLens ly lx (ly / 2))
    let out := if sf then putNZ out "SpSm_cross" (sfLen ly lx) else out
    let out := eraseKey out "bond_energy_dr"
    let out := if lx > 0 ∧ ly > 0 then putNZ out "SzSz_row" (lx / 2) else out
    some (put out "SzSz_all2all" (ly * lx * (ly * lx + 1) / 2))
  | .spinless => some (baseLens false true true false ly lx id)
  | .hubbard => some (put (baseLens true true false false ly lx id) "double_occupancy" (ly * lx))
  | .tJ nnn sc pairCorr _ => if pairCorr then none else some (baseLens true true nnn sc ly lx id)
  | .heisenbergPBC => some (putNZ (putNZ (put (put [] "energy" 1) "spin_z" (ly * lx)) "bond_energy_h" (ly * lx))
      "bond_energy_v" (ly * lx))
  | .j1j2PBC nnn => some (putNZ (putNZ (putNZ (putNZ (put (put [] "energy" 1) "spin_z" (ly * lx)) "bond_energy_h"
      (ly * lx)) "bond_energy_v" (ly * lx)) "bond_energy_dr" (if nnn then ly * lx else 0)) "bond_energy_ur"
      (if nnn then ly * lx else 0))
  | .tfim => some (putNZ (putNZ (put (put [] "energy" 1) "spin_z" (ly * lx)) "sigma_x" (ly * lx)) "SzSz_row" (lx / 2))

theorem lens_evaluate [Field K] (s : Solver) (ly lx h : ℕ) (hly : 0 < ly) (v : Vals K) :
    (evaluate s ly lx h v).map lens = skeleton s ly lx := by
  have hb : ∀ a b c d, lens (evalBase a b c d ly lx v (offDiagHook ly lx v))
      = baseLens a b c d ly lx (hookLens ly lx (ly / 2)) := fun a b c d =>
    lens_base a b c d ly lx v _ _ (fun o => by rw [fold_hook ly lx v hly, lens_hook])
  have hi : ∀ a b c d, lens (evalBase a b c d ly lx v (fun _ o => o)) = baseLens a b c d ly lx id := fun a b c d =>
    lens_base a b c d ly lx v _ _ (fun o => by rw [fold_id]; rfl)
  have hall : (szszAll (matrix ly lx (fun y x => spinHalf (K := K) (v.cfg y x)))).length
      = ly * lx * (ly * lx + 1) / 2 := by rw [szszAll_length, matrix_length]
  have hrow : (szszRow ly lx v).length = lx / 2 := by simp [szszRow]
  have hm : ∀ f : ℕ → ℕ → K, (if ly > 0 ∧ lx > 0 then matrix ly lx f else []).length = ly * lx := fun f =>
    ite_matrix _ _ _ _ (fun h => by
      have : lx = 0 := by omega
      rw [this, Nat.mul_zero])
  have hm2 : ∀ f : ℕ → ℕ → K, (if ly > 0 ∧ lx > 0 then matrix ly lx f else []).length = if true then ly * lx else 0 := hm
  have lnil : lens ([] : ObsMap K) = [] := rfl
  unfold evaluate skeleton
  cases s with
  | xxz sf => cases sf <;> simp [lens_putNonempty, lens_put, hb, hall, sf_length]
  | j1j2 => simp [hb]
  | triangle sf =>
    by_cases hp : lx > 0 ∧ ly > 0
    · cases sf <;> simp [lens_putNonempty, lens_put, hb, hall, hp.1, hp.2, lens_erase, hrow, sf_length]
    · simp only [if_neg hp]
      cases sf <;> simp [lens_putNonempty, lens_put, hb, hall, lens_erase, sf_length]
  | spinless => simp [hi]
  | hubbard => simp [hi, lens_put, matrix_length]
  | tJ nnn sc pc refs => cases pc <;> simp [hi]
  | heisenbergPBC =>
    simp only [Option.map_some, lens_putNonempty, lens_put, matrix_length, hm, lnil, List.length_cons, List.length_nil,
      Nat.zero_add]
  | j1j2PBC nnn =>
    cases nnn <;>
    simp only [Option.map_some, lens_putNonempty, lens_put, matrix_length, hm, lnil, List.length_cons, List.length_nil,
      Nat.zero_add, and_true, and_false, if_false, if_true, Bool.false_eq_true]
  | tfim =>
    simp only [Option.map_some, lens_putNonempty, lens_put, matrix_length, lnil, List.length_cons, List.length_nil,
      Nat.zero_add, hrow]

theorem nodup_hookLens (ly lx r : ℕ) (m : List (String × ℕ)) (h : (m.map Prod.fst).Nodup) :
    ((hookLens ly lx r m).map Prod.fst).Nodup := by
  unfold hookLens
  split_ifs
  · exact h
  · exact h
  · exact nodup_putNZ _ _ _ (nodup_putNZ _ _ _ h)

theorem nodup_baseLens (a b c d : Bool) (ly lx : ℕ) (hk : List (String × ℕ) → List (String × ℕ))
    (hh : ∀ m : List (String × ℕ), (m.map Prod.fst).Nodup → ((hk m).map Prod.fst).Nodup) :
    ((baseLens a b c d ly lx hk).map Prod.fst).Nodup := by
  have h0 : (([] : List (String × ℕ)).map Prod.fst).Nodup := by simp
  unfold baseLens
  cases a <;> cases b <;> cases c <;> cases d <;>
    simp only [if_true, if_false, Bool.false_eq_true] <;>
    repeat' first
      | apply nodup_putNZ
      | apply nodup_put
      | apply hh
      | exact h0

attribute [local irreducible] baseLens in
theorem nodup_skeleton (s : Solver) (ly lx : ℕ) (sk : List (String × ℕ)) (h : skeleton s ly lx = some sk) :
    (sk.map Prod.fst).Nodup := by
  have hb : ∀ a b c d, ((baseLens a b c d ly lx (hookLens ly lx (ly / 2))).map Prod.fst).Nodup := fun a b c d =>
    nodup_baseLens _ _ _ _ _ _ _ (fun m hm => nodup_hookLens _ _ _ m hm)
  have hi : ∀ a b c d, ((baseLens a b c d ly lx id).map Prod.fst).Nodup := fun a b c d =>
    nodup_baseLens _ _ _ _ _ _ _ (fun m hm => hm)
  have h0 : (([] : List (String × ℕ)).map Prod.fst).Nodup := by simp
  unfold skeleton at h
  cases s with
  | tJ nnn sc pc refs =>
    cases pc
    · simp only [Bool.false_eq_true, if_false, Option.some.injEq] at h
      subst h; exact hi _ _ _ _
    · simp at h
  | _ =>
    simp only [Option.some.injEq] at h
    subst h
    try split_ifs
    all_goals
      repeat' first
        | exact hb _ _ _ _
        | exact hi _ _ _ _
        | exact h0
        | apply nodup_putNZ
        | apply nodup_put
        | apply nodup_erase

/-! ## Dump -/

theorem mapM_ok {α β ε : Type*} (f : α → Except ε β) (l : List α) (h : ∀ x ∈ l, ∃ y, f x = .ok y) :
    ∃ ys, l.mapM f = .ok ys ∧ List.Forall₂ (fun x y => f x = .ok y) l ys := by
  induction l with
  | nil => exact ⟨[], rfl, .nil⟩
  | cons x l ih =>
    obtain ⟨y, hy⟩ := h x List.mem_cons_self
    obtain ⟨ys, e, hf⟩ := ih (fun z hz => h z (List.mem_cons_of_mem _ hz))
    refine ⟨y :: ys, ?_, .cons hy hf⟩
    rw [List.mapM_cons, hy, e]; rfl

theorem mapM_error {α β ε : Type*} (f : α → Except ε β) (l : List α) (err : ε) (x : α) (hx : x ∈ l)
    (hxe : f x = .error err) (h : ∀ z ∈ l, (∃ y, f z = .ok y) ∨ f z = .error err) : l.mapM f = .error err := by
  induction l with
  | nil => simp at hx
  | cons a l ih =>
    rw [List.mapM_cons]
    rcases h a List.mem_cons_self with ⟨y, hy⟩ | hy
    · rw [hy]
      rcases List.mem_cons.1 hx with rfl | hx
      · rw [hy] at hxe; simp at hxe
      · rw [ih hx (fun z hz => h z (List.mem_cons_of_mem _ hz))]; rfl
    · rw [hy]; rfl

theorem mapM_option {α β : Type*} (f : α → Option β) (l : List α) (h : ∀ x ∈ l, ∃ y, f x = some y) :
    ∃ ys, l.mapM f = some ys ∧ List.Forall₂ (fun x y => f x = some y) l ys := by
  induction l with
  | nil => exact ⟨[], rfl, .nil⟩
  | cons x l ih =>
    obtain ⟨y, hy⟩ := h x List.mem_cons_self
    obtain ⟨ys, e, hf⟩ := ih (fun z hz => h z (List.mem_cons_of_mem _ hz))
    refine ⟨y :: ys, ?_, .cons hy hf⟩
    rw [List.mapM_cons, hy, e]; rfl


section registry

variable {𝕜 : Type*} [RCLike 𝕜]

theorem lookup_of_mem {α : Type*} (m : List (String × α)) (h : (m.map Prod.fst).Nodup) (k : String) (a : α)
    (hm : (k, a) ∈ m) : m.lookup k = some a := by
  induction m with
  | nil => simp at hm
  | cons e m ih =>
    obtain ⟨k', a'⟩ := e
    rw [List.map_cons, List.nodup_cons] at h
    rcases List.mem_cons.1 hm with h1 | h1
    · cases h1
      rw [List.lookup_cons_self]
    · have : k ≠ k' := by
        rintro rfl
        exact h.1 (List.mem_map.2 ⟨_, h1, rfl⟩)
      rw [List.lookup_cons, show (k == k') = false by simpa using this]
      exact ih h.2 h1

theorem lens_keys (m : ObsMap K) : (lens m).map Prod.fst = m.map Prod.fst := by
  unfold lens; rw [List.map_map]; rfl

theorem mem_lens (m : ObsMap K) (k : String) (n : ℕ) (h : (k, n) ∈ lens m) : ∃ l, (k, l) ∈ m ∧ l.length = n := by
  obtain ⟨e, he, h2⟩ := List.mem_map.1 h
  obtain ⟨k', l⟩ := e
  cases h2
  exact ⟨l, he, rfl⟩

theorem gatherList_spec (ranks : List (List 𝕜)) (N : ℕ) (hne : ranks ≠ []) (hr : ∀ r ∈ ranks, r.length = N) :
    ∃ avg err, gatherList ranks = some (avg, err) ∧ avg.length = N ∧
      ∀ k, k < N → avg.getD k 0 = average (ranks.map (fun r => r.getD k 0)) := by
  by_cases h2 : 2 ≤ ranks.length
  · obtain ⟨avg, err, e, l, _, g⟩ := C22_gather_lists ranks N hr h2
    exact ⟨avg, err, e, l, fun k hk => (g k hk).1⟩
  · obtain ⟨r, rest, rfl⟩ := List.exists_cons_of_ne_nil hne
    have : rest = [] := by
      cases rest with
      | nil => rfl
      | cons a b => simp at h2
    subst this
    have hl : r.length = N := hr r (by simp)
    unfold gatherList
    simp only [List.headD_cons, List.any_cons, List.any_nil, ne_eq, not_true, decide_false, Bool.or_false,
      Bool.false_eq_true, if_false, List.length_cons, List.length_nil, Nat.zero_add, if_true]
    by_cases h0 : r.length = 0
    · rw [if_pos h0]
      exact ⟨[], [], rfl, by simp; omega, fun k hk => by omega⟩
    · rw [if_neg h0]
      exact ⟨r, [], rfl, hl, fun k _ => by simp [average]⟩

theorem gatherKey_spec (ranks : List (List (ObsMap 𝕜))) (sk : List (String × ℕ)) (hn : (sk.map Prod.fst).Nodup)
    (hr : ranks ≠ []) (hs : ∀ r ∈ ranks, r ≠ []) (h : ∀ r ∈ ranks, ∀ o ∈ r, lens o = sk) (k : String) (n : ℕ)
    (hk : (k, n) ∈ sk) :
    ∃ l, gatherKey ranks k = some l ∧ l.length = n ∧
      ∀ j, j < n → l.getD j 0 = doubleAverage ranks (fun o => ((o.lookup k).getD []).getD j 0) := by
  have hlook : ∀ r ∈ ranks, ∀ o ∈ r, ∃ l, o.lookup k = some l ∧ l.length = n := by
    intro r hr o ho
    have hl := h r hr o ho
    obtain ⟨l, hm, hlen⟩ := mem_lens o k n (by rw [hl]; exact hk)
    exact ⟨l, lookup_of_mem o (by rw [← lens_keys, hl]; exact hn) k l hm, hlen⟩
  have hrank : ∀ r ∈ ranks, ∃ l, rankMean r k = some l ∧ l.length = n ∧
      ∀ j, j < n → l.getD j 0 = average (r.map (fun o => ((o.lookup k).getD []).getD j 0)) := by
    intro r hr
    have hso : samplesOf r k = r.map (fun o => (o.lookup k).getD []) := by
      unfold samplesOf
      have := hlook r hr
      clear h hr
      induction r with
      | nil => rfl
      | cons o r ih =>
        obtain ⟨l, hl, _⟩ := this o List.mem_cons_self
        rw [List.filterMap_cons, hl, List.map_cons, hl]
        dsimp only
        rw [ih (fun o' ho' => this o' (List.mem_cons_of_mem _ ho'))]
        rfl
    obtain ⟨avg, e, l, g, _⟩ := C22_average_lists (samplesOf r k) n (by
      rw [hso]; intro d hd
      obtain ⟨o, ho, rfl⟩ := List.mem_map.1 hd
      obtain ⟨l, hl, hlen⟩ := hlook r hr o ho
      rw [hl]; exact hlen) (by rw [hso]; simpa using hs r hr)
    refine ⟨avg, e, l, fun j hj => ?_⟩
    rw [g j hj, hso, List.map_map]; rfl
  obtain ⟨ls, e, hf⟩ := mapM_option (fun r => rankMean r k) ranks (fun r hr => by
    obtain ⟨l, e, _⟩ := hrank r hr; exact ⟨l, e⟩)
  have hspec : List.Forall₂ (fun r l => l.length = n ∧
      ∀ j, j < n → l.getD j 0 = average (r.map (fun o => ((o.lookup k).getD []).getD j 0))) ranks ls := by
    clear e
    have aux : ∀ (rs : List (List (ObsMap 𝕜))) (ls : List (List 𝕜)), (∀ r ∈ rs, r ∈ ranks) →
        List.Forall₂ (fun r l => rankMean r k = some l) rs ls → List.Forall₂ (fun r l => l.length = n ∧
      ∀ j, j < n → l.getD j 0 = average (r.map (fun o => ((o.lookup k).getD []).getD j 0))) rs ls := by
      intro rs ls hrs hf
      induction hf with
      | nil => exact .nil
      | cons h1 _ ih =>
        refine .cons ?_ (ih (fun r hr => hrs r (List.mem_cons_of_mem _ hr)))
        obtain ⟨l', e', p⟩ := hrank _ (hrs _ List.mem_cons_self)
        rw [h1] at e'; cases e'
        exact p
    exact aux ranks ls (fun _ h => h) hf
  have hlne : ls ≠ [] := by
    rintro rfl
    cases hspec; exact hr rfl
  obtain ⟨avg, err, eg, hl, g⟩ := gatherList_spec ls n hlne (by
    intro l hl
    have : ∀ (rs : List (List (ObsMap 𝕜))) (ls : List (List 𝕜)), List.Forall₂ (fun r l => l.length = n ∧
      ∀ j, j < n → l.getD j 0 = average (r.map (fun o => ((o.lookup k).getD []).getD j 0))) rs ls →
        ∀ l ∈ ls, l.length = n := by
      intro rs ls hf
      induction hf with
      | nil => simp
      | cons h1 _ ih =>
        intro l hl
        rcases List.mem_cons.1 hl with rfl | hl
        · exact h1.1
        · exact ih l hl
    exact this ranks ls hspec l hl)
  refine ⟨avg, ?_, hl, ?_⟩
  · unfold gatherKey
    rw [e]
    simp [eg]
  · intro j hj
    rw [g j hj]
    unfold doubleAverage
    congr 1
    have : ∀ (rs : List (List (ObsMap 𝕜))) (ls : List (List 𝕜)), List.Forall₂ (fun r l => l.length = n ∧
      ∀ j, j < n → l.getD j 0 = average (r.map (fun o => ((o.lookup k).getD []).getD j 0))) rs ls →
        ls.map (fun l => l.getD j 0) = rs.map (fun r => average (r.map (fun o => ((o.lookup k).getD []).getD j 0))) := by
      intro rs ls hf
      induction hf with
      | nil => rfl
      | cons h1 _ ih => rw [List.map_cons, List.map_cons, ih, h1.2 j hj]
    exact this ranks ls hspec

theorem registry_spec (ranks : List (List (ObsMap 𝕜))) (sk : List (String × ℕ)) (hn : (sk.map Prod.fst).Nodup)
    (hr : ranks ≠ []) (hs : ∀ r ∈ ranks, r ≠ []) (h : ∀ r ∈ ranks, ∀ o ∈ r, lens o = sk) :
    ∃ reg, registry ranks = some reg ∧ (reg.map Prod.fst).Nodup ∧
      (∀ k, k ∈ reg.map Prod.fst ↔ k ∈ sk.map Prod.fst) ∧
      ∀ k l, (k, l) ∈ reg → ∃ n, (k, n) ∈ sk ∧ l.length = n ∧
        ∀ j, j < n → l.getD j 0 = doubleAverage ranks (fun o => ((o.lookup k).getD []).getD j 0) := by
  set keys := ((ranks.headD []).flatMap (fun o => o.map Prod.fst)).dedup with hkeys
  have hmem : ∀ k, k ∈ keys ↔ k ∈ sk.map Prod.fst := by
    intro k
    obtain ⟨r, rest, rfl⟩ := List.exists_cons_of_ne_nil hr
    rw [hkeys, List.mem_dedup, List.headD_cons, List.mem_flatMap]
    constructor
    · rintro ⟨o, ho, hk⟩
      rw [← h r List.mem_cons_self o ho, lens_keys]; exact hk
    · intro hk
      obtain ⟨o, r', rfl⟩ := List.exists_cons_of_ne_nil (hs r List.mem_cons_self)
      refine ⟨o, List.mem_cons_self, ?_⟩
      rw [← lens_keys, h _ List.mem_cons_self o List.mem_cons_self]; exact hk
  obtain ⟨reg, e, hf⟩ := mapM_option (fun k => (gatherKey ranks k).map (fun l => (k, l))) keys (by
    intro k hk
    obtain ⟨⟨k', n⟩, hkn, rfl⟩ := List.mem_map.1 ((hmem k).1 hk)
    obtain ⟨l, el, _⟩ := gatherKey_spec ranks sk hn hr hs h k' n hkn
    exact ⟨(k', l), by rw [el]; rfl⟩)
  have hmap : reg.map Prod.fst = keys := by
    clear_value keys
    clear e hmem hkeys
    induction hf with
    | nil => rfl
    | cons h1 _ ih =>
      obtain ⟨l, _, rfl⟩ := Option.map_eq_some_iff.1 h1
      rw [List.map_cons, ih]
  refine ⟨reg, e, by rw [hmap]; exact List.nodup_dedup _, fun k => by rw [hmap]; exact hmem k, ?_⟩
  intro k l hkl
  have hg : gatherKey ranks k = some l := by
    have : ∀ ks reg, List.Forall₂ (fun k (e : String × List 𝕜) => (gatherKey ranks k).map (fun l => (k, l)) = some e)
        ks reg → ∀ k l, (k, l) ∈ reg → gatherKey ranks k = some l := by
      intro ks reg hf
      induction hf with
      | nil => simp
      | cons h1 _ ih =>
        intro k l hm
        rcases List.mem_cons.1 hm with h2 | h2
        · obtain ⟨l', e', h3⟩ := Option.map_eq_some_iff.1 h1
          rw [← h2] at h3
          cases h3; exact e'
        · exact ih k l h2
    exact this keys reg hf k l hkl
  have hk : k ∈ sk.map Prod.fst := (hmem k).1 (by rw [← hmap]; exact List.mem_map.2 ⟨_, hkl, rfl⟩)
  obtain ⟨⟨k', n⟩, hkn, rfl⟩ := List.mem_map.1 hk
  obtain ⟨l', el, p⟩ := gatherKey_spec ranks sk hn hr hs h k' n hkn
  rw [hg] at el; cases el
  exact ⟨n, hkn, p⟩

end registry

end QLPeps.Observables
