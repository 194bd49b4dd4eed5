import Mathlib.Tactic
import Verif.Lemmas.ObservablesEmit

/-! # The entries of each solver, and their dump -/

namespace QLPeps.Observables

open QLPeps.Statistics

variable {K : Type*} [Field K]

theorem mem_xxz (sf : Bool) (ly lx h : ℕ) (hly : 0 < ly) (hlx : 0 < lx) (v : Vals K) (o : ObsMap K)
    (ho : evaluate (.xxz sf) ly lx h v = some o) (e : String × List K) :
    e ∈ o ↔ Emitted (.xxz sf) ly lx h v e := by
  simp only [evaluate, Option.some.injEq] at ho
  subst ho
  have m1 := fun e => mem_put_new (evalBase true false false false ly lx v (offDiagHook ly lx v)) "SzSz_all2all"
    (szszAll (matrix ly lx (fun y x => spinHalf (K := K) (v.cfg y x)))) (by
      intro e he hk
      have := key_base _ _ _ _ _ ly lx v e ((mem_base_hook _ _ _ hly hlx _ _).1 he)
      rw [hk] at this; simp at this) e
  set o1 := put (evalBase true false false false ly lx v (offDiagHook ly lx v)) "SzSz_all2all"
    (szszAll (matrix ly lx (fun y x => spinHalf (K := K) (v.cfg y x))))
  have m2 := mem_putNonempty_new o1 "SpSm_cross" (structureFactor ly lx h v) (by
      intro e he hk
      rcases (m1 e).1 he with h | rfl
      · have := key_base _ _ _ _ _ ly lx v e ((mem_base_hook _ _ _ hly hlx _ _).1 h)
        rw [hk] at this; simp at this
      · simp at hk) e
  rw [sf_ne_nil _ _ _ hlx] at m2
  have m3 : e ∈ (if sf = true then putNonempty o1 "SpSm_cross" (structureFactor ly lx h v) else o1) ↔
      e ∈ o1 ∨ ((sf = true ∧ 2 ≤ ly) ∧ e = ("SpSm_cross", structureFactor ly lx h v)) := by
    cases sf
    · simp
    · rw [if_pos rfl, m2]; simp
  rw [m3, m1, mem_base_hook _ _ _ hly hlx]
  rfl

theorem mem_j1j2 (ly lx h : ℕ) (hly : 0 < ly) (hlx : 0 < lx) (v : Vals K) (o : ObsMap K)
    (ho : evaluate .j1j2 ly lx h v = some o) (e : String × List K) :
    e ∈ o ↔ Emitted .j1j2 ly lx h v e := by
  simp only [evaluate, Option.some.injEq] at ho
  subst ho
  rw [mem_base_hook _ _ _ hly hlx]
  rfl

theorem mem_triangle (sf : Bool) (ly lx h : ℕ) (hly : 0 < ly) (hlx : 0 < lx) (v : Vals K) (o : ObsMap K)
    (ho : evaluate (.triangle sf) ly lx h v = some o) (e : String × List K) :
    e ∈ o ↔ Emitted (.triangle sf) ly lx h v e := by
  simp only [evaluate, Option.some.injEq] at ho
  subst ho
  rw [if_pos ⟨hlx, hly⟩]
  have m2 := fun e => mem_putNonempty_new (evalBase true false true false ly lx v (offDiagHook ly lx v))
    "SpSm_cross" (structureFactor ly lx h v) (by
      intro e he hk
      have := key_base _ _ _ _ _ ly lx v e ((mem_base_hook _ _ _ hly hlx _ _).1 he)
      rw [hk] at this; simp at this) e
  simp only [sf_ne_nil _ _ _ hlx] at m2
  have m3 : ∀ e, e ∈ (if sf = true then putNonempty (evalBase true false true false ly lx v (offDiagHook ly lx v))
      "SpSm_cross" (structureFactor ly lx h v) else evalBase true false true false ly lx v (offDiagHook ly lx v)) ↔
      e ∈ evalBase true false true false ly lx v (offDiagHook ly lx v) ∨
      ((sf = true ∧ 2 ≤ ly) ∧ e = ("SpSm_cross", structureFactor ly lx h v)) := by
    intro e
    cases sf
    · simp
    · rw [if_pos rfl, m2]; simp
  set o1 := (if sf = true then putNonempty (evalBase true false true false ly lx v (offDiagHook ly lx v))
      "SpSm_cross" (structureFactor ly lx h v) else evalBase true false true false ly lx v (offDiagHook ly lx v))
  have k1 : ∀ e ∈ o1, e.1 ∈ ["spin_z", "charge", "SmSp_row", "SpSm_row", "energy", "bond_energy_h", "bond_energy_v",
      "bond_energy_dr", "bond_energy_ur", "SC_bond_singlet_h", "SC_bond_singlet_v", "SpSm_cross"] := by
    intro e he
    rcases (m3 e).1 he with h | ⟨_, rfl⟩
    · have := key_base _ _ _ _ _ ly lx v e ((mem_base_hook _ _ _ hly hlx _ _).1 h)
      simp only [List.mem_cons, List.not_mem_nil, or_false] at this ⊢
      tauto
    · simp
  have m4 := fun e => mem_putNonempty_new (eraseKey o1 "bond_energy_dr") "SzSz_row" (szszRow ly lx v) (by
      intro e he hk
      have := k1 e ((mem_erase _ _ _).1 he).1
      rw [hk] at this; simp at this) e
  simp only [szszRow_ne_nil] at m4
  rw [mem_put_new _ _ _ (by
      intro e he hk
      rcases (m4 e).1 he with h | ⟨_, rfl⟩
      · have := k1 e ((mem_erase _ _ _).1 h).1
        rw [hk] at this; simp at this
      · simp at hk), m4, mem_erase, m3, mem_base_hook _ _ _ hly hlx]
  rfl

theorem mem_spinless (ly lx h : ℕ) (hly : 0 < ly) (hlx : 0 < lx) (v : Vals K) (o : ObsMap K)
    (ho : evaluate .spinless ly lx h v = some o) (e : String × List K) :
    e ∈ o ↔ Emitted .spinless ly lx h v e := by
  simp only [evaluate, Option.some.injEq] at ho
  subst ho
  rw [mem_base_plain _ _ _ _ _ _ hly hlx]
  rfl

theorem mem_hubbard (ly lx h : ℕ) (hly : 0 < ly) (hlx : 0 < lx) (v : Vals K) (o : ObsMap K)
    (ho : evaluate .hubbard ly lx h v = some o) (e : String × List K) :
    e ∈ o ↔ Emitted .hubbard ly lx h v e := by
  simp only [evaluate, Option.some.injEq] at ho
  subst ho
  rw [mem_put_new _ _ _ (by
      intro e he hk
      have := key_base _ _ _ _ _ ly lx v e ((mem_base_plain _ _ _ _ _ _ hly hlx v e).1 he)
      rw [hk] at this; simp at this),
    mem_base_plain _ _ _ _ _ _ hly hlx]
  rfl

theorem mem_tJ (nnn sc pc : Bool) (refs : List (ℕ × ℕ)) (ly lx h : ℕ) (hly : 0 < ly) (hlx : 0 < lx) (v : Vals K) (o : ObsMap K)
    (ho : evaluate (.tJ nnn sc pc refs) ly lx h v = some o) (e : String × List K) :
    e ∈ o ↔ Emitted (.tJ nnn sc pc refs) ly lx h v e := by
  simp only [evaluate] at ho
  split_ifs at ho
  simp only [Option.some.injEq] at ho
  subst ho
  rw [mem_base_plain _ _ _ _ _ _ hly hlx]
  rfl

theorem mem_heisPBC (ly lx h : ℕ) (hly : 0 < ly) (hlx : 0 < lx) (v : Vals K) (o : ObsMap K)
    (ho : evaluate .heisenbergPBC ly lx h v = some o) (e : String × List K) :
    e ∈ o ↔ Emitted .heisenbergPBC ly lx h v e := by
  simp only [evaluate, Option.some.injEq] at ho
  subst ho
  have n : ∀ f : ℕ → ℕ → K, matrix ly lx f ≠ [] := fun f => (matrix_ne_nil ly lx f).2 ⟨hly, hlx⟩
  rw [if_pos ⟨hly, hlx⟩, if_pos ⟨hly, hlx⟩]
  simp only [mem_putNonempty, mem_put, n, or_false, and_true, ne_eq, not_false_eq_true, List.not_mem_nil, false_and, false_or]
  simp only [Emitted]
  constructor
  · rintro (⟨⟨⟨rfl, _⟩ | rfl, _⟩ | rfl, _⟩ | rfl) <;> simp_all [spinZ_eq]
  · rintro (rfl | rfl | rfl | rfl) <;> simp_all [spinZ_eq]

theorem mem_j1j2PBC (nnn : Bool) (ly lx h : ℕ) (hly : 0 < ly) (hlx : 0 < lx) (v : Vals K) (o : ObsMap K)
    (ho : evaluate (.j1j2PBC nnn) ly lx h v = some o) (e : String × List K) :
    e ∈ o ↔ Emitted (.j1j2PBC nnn) ly lx h v e := by
  simp only [evaluate, Option.some.injEq] at ho
  subst ho
  have n : ∀ f : ℕ → ℕ → K, matrix ly lx f ≠ [] := fun f => (matrix_ne_nil ly lx f).2 ⟨hly, hlx⟩
  have p : (ly > 0 ∧ lx > 0) := ⟨hly, hlx⟩
  simp only [p, and_self, true_and, if_true]
  cases nnn
  · simp only [mem_putNonempty, mem_put, n, or_false, and_true, ne_eq, not_false_eq_true, List.not_mem_nil, false_and,
      false_or, Bool.false_eq_true, if_false, not_true, and_false, or_true]
    simp only [Emitted, Bool.false_eq_true, false_and, or_false]
    constructor
    · rintro (⟨⟨⟨rfl, _⟩ | rfl, _⟩ | rfl, _⟩ | rfl) <;> simp_all [spinZ_eq]
    · rintro (rfl | rfl | rfl | rfl) <;> simp_all [spinZ_eq]
  · simp only [mem_putNonempty, mem_put, n, or_false, and_true, ne_eq, not_false_eq_true, List.not_mem_nil, false_and,
      false_or, if_true]
    simp only [Emitted, true_and]
    constructor
    · rintro (⟨⟨⟨⟨⟨rfl, _⟩ | rfl, _⟩ | rfl, _⟩ | rfl, _⟩ | rfl, _⟩ | rfl) <;> simp_all [spinZ_eq]
    · rintro (rfl | rfl | rfl | rfl | rfl | rfl) <;> simp_all [spinZ_eq]

theorem mem_tfim (ly lx h : ℕ) (hly : 0 < ly) (hlx : 0 < lx) (v : Vals K) (o : ObsMap K)
    (ho : evaluate .tfim ly lx h v = some o) (e : String × List K) :
    e ∈ o ↔ Emitted .tfim ly lx h v e := by
  simp only [evaluate, Option.some.injEq] at ho
  subst ho
  have n : ∀ f : ℕ → ℕ → K, matrix ly lx f ≠ [] := fun f => (matrix_ne_nil ly lx f).2 ⟨hly, hlx⟩
  have m : ∀ e, e ∈ putNonempty (put (put [] "energy" [v.energy]) "spin_z" (matrix ly lx (fun y x => spinHalf (K := K) (v.cfg y x))))
      "sigma_x" (matrix ly lx v.sx) ↔ e = ("energy", [v.energy]) ∨
      e = ("spin_z", matrix ly lx (fun y x => (v.cfg y x : K) - 1 / 2)) ∨ e = ("sigma_x", matrix ly lx v.sx) := by
    intro e
    simp only [mem_putNonempty, mem_put, n, or_false, and_true, ne_eq, not_false_eq_true, List.not_mem_nil, false_and,
      false_or]
    constructor
    · rintro (⟨⟨rfl, _⟩ | rfl, _⟩ | rfl) <;> simp_all [spinZ_eq]
    · rintro (rfl | rfl | rfl) <;> simp_all [spinZ_eq]
  rw [mem_putNonempty_new _ _ _ (by
    intro e he hk
    rcases (m e).1 he with rfl | rfl | rfl <;> simp at hk), m, szszRow_ne_nil]
  rfl

/-- every entry of the map a solver emits -/
theorem mem_evaluate (s : Solver) (ly lx h : ℕ) (hly : 0 < ly) (hlx : 0 < lx) (v : Vals K) (o : ObsMap K)
    (ho : evaluate s ly lx h v = some o) (e : String × List K) : e ∈ o ↔ Emitted s ly lx h v e := by
  cases s with
  | xxz b => exact mem_xxz b ly lx h hly hlx v o ho e
  | j1j2 => exact mem_j1j2 ly lx h hly hlx v o ho e
  | triangle b => exact mem_triangle b ly lx h hly hlx v o ho e
  | spinless => exact mem_spinless ly lx h hly hlx v o ho e
  | hubbard => exact mem_hubbard ly lx h hly hlx v o ho e
  | tJ a b c d => exact mem_tJ a b c d ly lx h hly hlx v o ho e
  | heisenbergPBC => exact mem_heisPBC ly lx h hly hlx v o ho e
  | j1j2PBC b => exact mem_j1j2PBC b ly lx h hly hlx v o ho e
  | tfim => exact mem_tfim ly lx h hly hlx v o ho e

/-- An entry agrees with the metadata of its key. -/
def Fits (s : Solver) (ly lx : ℕ) (v : Vals K) (e : String × List K) : Prop :=
  ∃ m, (describe s ly lx).find? (fun m => m.key = e.1) = some m ∧
    (m.shape = [] ∨ (∃ n, m.shape = [n] ∧ 0 < n ∧ e.2.length = n) ∨
      (∃ r c, m.shape = [r, c] ∧ 0 < r ∧ 0 < c ∧ e.2 = matrix r c (cell s e.1 v)))

theorem fits_table (s : Solver) (ly lx : ℕ) (v : Vals K) (k : String) (r c : ℕ) (f : ℕ → ℕ → K) (p : Bool)
    (hf : (describe s ly lx).find? (fun m => m.key = k) = some ⟨k, [r, c], p⟩) (hr : 0 < r) (hc : 0 < c)
    (hcell : f = cell s k v) : Fits s ly lx v (k, matrix r c f) :=
  ⟨_, hf, .inr (.inr ⟨r, c, rfl, hr, hc, by rw [hcell]⟩)⟩

theorem fits_vec (s : Solver) (ly lx : ℕ) (v : Vals K) (k : String) (n : ℕ) (l : List K) (p : Bool)
    (hf : (describe s ly lx).find? (fun m => m.key = k) = some ⟨k, [n], p⟩) (hn : 0 < n)
    (hl : l.length = n) : Fits s ly lx v (k, l) :=
  ⟨_, hf, .inr (.inl ⟨n, rfl, hn, hl⟩)⟩

theorem fits_scalar (s : Solver) (ly lx : ℕ) (v : Vals K) (k : String) (l : List K) (p : Bool)
    (hf : (describe s ly lx).find? (fun m => m.key = k) = some ⟨k, [], p⟩) : Fits s ly lx v (k, l) :=
  ⟨_, hf, .inl rfl⟩

theorem szszRow_length (ly lx : ℕ) (v : Vals K) : (szszRow ly lx v).length = lx / 2 := by
  unfold szszRow; simp

theorem all_length (ly lx : ℕ) (v : Vals K) :
    (szszAll (matrix ly lx (fun y x => spinHalf (K := K) (v.cfg y x)))).length = ly * lx * (ly * lx + 1) / 2 := by
  rw [szszAll_length, matrix_length]

theorem tri_pos (ly lx : ℕ) (hly : 0 < ly) (hlx : 0 < lx) : 0 < ly * lx * (ly * lx + 1) / 2 := by
  have h : 1 ≤ ly * lx := Nat.mul_pos hly hlx
  have : 1 * 2 ≤ ly * lx * (ly * lx + 1) := Nat.mul_le_mul h (by omega)
  omega

/-- base entries fit if the solver's metadata starts like the base metadata -/
theorem fits_base (s : Solver) (a b c d off : Bool) (ly lx : ℕ) (hly : 0 < ly) (hlx : 0 < lx) (v : Vals K)
    (e : String × List K) (he : BaseEntry a b c d off ly lx v e)
    (hE : (describe s ly lx).find? (fun m => m.key = "energy") = some ⟨"energy", [], false⟩)
    (hS : a = true → (describe s ly lx).find? (fun m => m.key = "spin_z") = some ⟨"spin_z", [ly, lx], false⟩)
    (hS' : (fun y x => v.sz (v.cfg y x)) = cell s "spin_z" v)
    (hC : b = true → (describe s ly lx).find? (fun m => m.key = "charge") = some ⟨"charge", [ly, lx], false⟩)
    (hH : (describe s ly lx).find? (fun m => m.key = "bond_energy_h") = some ⟨"bond_energy_h", [ly, lx - 1], false⟩)
    (hV : (describe s ly lx).find? (fun m => m.key = "bond_energy_v") = some ⟨"bond_energy_v", [ly - 1, lx], false⟩)
    (hD : c = true → e.1 = "bond_energy_dr" → (describe s ly lx).find? (fun m => m.key = "bond_energy_dr") =
      some ⟨"bond_energy_dr", [ly - 1, lx - 1], false⟩)
    (hU : c = true → (describe s ly lx).find? (fun m => m.key = "bond_energy_ur") =
      some ⟨"bond_energy_ur", [ly - 1, lx - 1], false⟩)
    (hSH : d = true → (describe s ly lx).find? (fun m => m.key = "SC_bond_singlet_h") =
      some ⟨"SC_bond_singlet_h", [ly, lx - 1], false⟩)
    (hSV : d = true → (describe s ly lx).find? (fun m => m.key = "SC_bond_singlet_v") =
      some ⟨"SC_bond_singlet_v", [ly - 1, lx], false⟩)
    (hO : off = true → (describe s ly lx).find? (fun m => m.key = "SmSp_row") = some ⟨"SmSp_row", [lx / 2], false⟩)
    (hO' : off = true → (describe s ly lx).find? (fun m => m.key = "SpSm_row") = some ⟨"SpSm_row", [lx / 2], false⟩) :
    Fits s ly lx v e := by
  rcases he with ⟨h, rfl⟩ | ⟨h, rfl⟩ | ⟨h, rfl⟩ | ⟨h, rfl⟩ | rfl | ⟨h, rfl⟩ | ⟨h, rfl⟩ | ⟨h, rfl⟩ | ⟨h, rfl⟩ | ⟨h, rfl⟩ |
    ⟨h, rfl⟩
  · exact fits_table _ _ _ _ _ _ _ _ _ (hS h) hly hlx hS'
  · exact fits_table _ _ _ _ _ _ _ _ _ (hC h) hly hlx rfl
  · exact fits_vec _ _ _ _ _ _ _ _ (hO h.1) (by omega) (offVectors_length ly lx v).1
  · exact fits_vec _ _ _ _ _ _ _ _ (hO' h.1) (by omega) (offVectors_length ly lx v).2
  · exact fits_scalar _ _ _ _ _ _ _ hE
  · exact fits_table _ _ _ _ _ _ _ _ _ hH hly (by omega) rfl
  · exact fits_table _ _ _ _ _ _ _ _ _ hV (by omega) hlx rfl
  · exact fits_table _ _ _ _ _ _ _ _ _ (hD h.1 rfl) (by omega) (by omega) rfl
  · exact fits_table _ _ _ _ _ _ _ _ _ (hU h.1) (by omega) (by omega) rfl
  · exact fits_table _ _ _ _ _ _ _ _ _ (hSH h.1) hly (by omega) rfl
  · exact fits_table _ _ _ _ _ _ _ _ _ (hSV h.1) (by omega) hlx rfl

/-- every emitted entry fits its metadata, except the structure factor of the triangular solver -/
theorem emitted_fits (s : Solver) (ly lx h : ℕ) (hly : 0 < ly) (hlx : 0 < lx) (v : Vals K) (e : String × List K)
    (he : Emitted s ly lx h v e) (hs : s ≠ .triangle true ∨ e.1 ≠ "SpSm_cross") : Fits s ly lx v e := by
  cases s with
  | xxz b =>
    rcases he with (he | rfl) | ⟨_, rfl⟩
    · apply fits_base (.xxz b) _ _ _ _ _ ly lx hly hlx v e he <;> first | (simp [describe, descBase]; done) | rfl
    · exact fits_vec _ _ _ _ _ _ _ true (by simp [describe, descBase]) (tri_pos ly lx hly hlx) (all_length ly lx v)
    · exact fits_scalar _ _ _ _ _ _ false (by simp [describe, descBase])
  | j1j2 =>
    apply fits_base .j1j2 _ _ _ _ _ ly lx hly hlx v e he <;> first | (simp [describe, descBase]; done) | rfl
  | triangle b =>
    rcases he with ((⟨he | ⟨h1, rfl⟩, hk⟩ | ⟨h1, rfl⟩) | rfl)
    · apply fits_base (.triangle b) _ _ _ _ _ ly lx hly hlx v e he <;> (try simp [describe, descBase])
      · rfl
      · exact hk
    · exfalso
      rcases hs with hs | hs
      · exact hs (by rw [h1.1])
      · exact hs rfl
    · exact fits_vec _ _ _ _ _ _ _ false (by simp [describe, descBase]) (by omega) (szszRow_length ly lx v)
    · exact fits_vec _ _ _ _ _ _ _ true (by simp [describe, descBase]) (tri_pos ly lx hly hlx) (all_length ly lx v)
  | spinless =>
    apply fits_base .spinless _ _ _ _ _ ly lx hly hlx v e he <;> first | (simp [describe, descBase]; done) | rfl
  | hubbard =>
    rcases he with he | rfl
    · apply fits_base .hubbard _ _ _ _ _ ly lx hly hlx v e he <;> first | (simp [describe, descBase]; done) | rfl
    · exact fits_table _ _ _ _ _ _ _ _ false (by simp [describe, descBase]) hly hlx rfl
  | tJ a b c d =>
    apply fits_base (.tJ a b c d) _ _ _ _ _ ly lx hly hlx v e he <;> cases a <;> first | (simp [describe, descBase]; done) | rfl
  | heisenbergPBC =>
    rcases he with rfl | rfl | rfl | rfl
    · exact fits_scalar _ _ _ _ _ _ false (by simp [describe])
    · exact fits_table _ _ _ _ _ _ _ _ false (by simp [describe]) hly hlx rfl
    · exact fits_table _ _ _ _ _ _ _ _ false (by simp [describe]) hly hlx rfl
    · exact fits_table _ _ _ _ _ _ _ _ false (by simp [describe]) hly hlx rfl
  | j1j2PBC b =>
    rcases he with rfl | rfl | rfl | rfl | ⟨rfl, rfl⟩ | ⟨rfl, rfl⟩
    · exact fits_scalar _ _ _ _ _ _ false (by simp [describe])
    · exact fits_table _ _ _ _ _ _ _ _ false (by simp [describe]) hly hlx rfl
    · exact fits_table _ _ _ _ _ _ _ _ false (by simp [describe]) hly hlx rfl
    · exact fits_table _ _ _ _ _ _ _ _ false (by simp [describe]) hly hlx rfl
    · exact fits_table _ _ _ _ _ _ _ _ false (by simp [describe]) hly hlx rfl
    · exact fits_table _ _ _ _ _ _ _ _ false (by simp [describe]) hly hlx rfl
  | tfim =>
    rcases he with (rfl | rfl | rfl) | ⟨_, rfl⟩
    · exact fits_scalar _ _ _ _ _ _ false (by simp [describe])
    · exact fits_table _ _ _ _ _ _ _ _ false (by simp [describe]) hly hlx rfl
    · exact fits_table _ _ _ _ _ _ _ _ false (by simp [describe]) hly hlx rfl
    · exact fits_vec _ _ _ _ _ _ _ false (by simp [describe]) (by omega) (szszRow_length ly lx v)

end QLPeps.Observables
