import Mathlib.Algebra.BigOperators.Group.Finset.Basic
import Mathlib.Algebra.BigOperators.Ring.Finset
import Mathlib.Data.Fintype.Pi
import Mathlib.Data.Fintype.BigOperators
import Mathlib.Algebra.BigOperators.Fin
import Mathlib.Data.Fin.Tuple.Basic
import Mathlib.Data.List.OfFn

/-! # Sums over boxes of lists and over paths -/

namespace QLPeps.Box

/-- all lists with entries below the given bounds -/
def box : List ℕ → Finset (List ℕ)
  | [] => {[]}
  | d :: ds => (Finset.range d ×ˢ box ds).map
      ⟨fun x => x.1 :: x.2, fun x y h => by
        injection h with h1 h2; exact Prod.ext h1 h2⟩

variable {M : Type*} [AddCommMonoid M]

theorem sum_box_nil (f : List ℕ → M) : ∑ x ∈ box [], f x = f [] := by simp [box]

theorem sum_box_cons (d : ℕ) (ds : List ℕ) (f : List ℕ → M) :
    ∑ x ∈ box (d :: ds), f x = ∑ k ∈ Finset.range d, ∑ x ∈ box ds, f (k :: x) := by
  simp only [box, Finset.sum_map, Finset.sum_product]
  rfl

theorem mem_box_nil {x : List ℕ} : x ∈ box [] ↔ x = [] := by simp [box]

theorem mem_box_cons {d : ℕ} {ds : List ℕ} {x : List ℕ} :
    x ∈ box (d :: ds) ↔ ∃ k xs, x = k :: xs ∧ k < d ∧ xs ∈ box ds := by
  simp only [box, Finset.mem_map, Finset.mem_product, Finset.mem_range,
    Function.Embedding.coeFn_mk, Prod.exists]
  constructor
  · rintro ⟨a, b, ⟨h1, h2⟩, rfl⟩; exact ⟨a, b, rfl, h1, h2⟩
  · rintro ⟨a, b, rfl, h1, h2⟩; exact ⟨a, b, ⟨h1, h2⟩, rfl⟩

theorem cons_mem_box {d k : ℕ} {ds xs : List ℕ} :
    k :: xs ∈ box (d :: ds) ↔ k < d ∧ xs ∈ box ds := by
  rw [mem_box_cons]
  constructor
  · rintro ⟨_, _, h, h1, h2⟩; cases h; exact ⟨h1, h2⟩
  · rintro ⟨h1, h2⟩; exact ⟨_, _, rfl, h1, h2⟩

theorem mem_box {ds : List ℕ} {x : List ℕ} : x ∈ box ds ↔ List.Forall₂ (· < ·) x ds := by
  induction ds generalizing x with
  | nil => simp [mem_box_nil]
  | cons d ds ih =>
    rw [mem_box_cons]
    constructor
    · rintro ⟨k, xs, rfl, h1, h2⟩; exact .cons h1 (ih.1 h2)
    · intro h
      cases h with
      | cons h1 h2 => exact ⟨_, _, rfl, h1, ih.2 h2⟩

theorem length_of_mem {ds x : List ℕ} (h : x ∈ box ds) : x.length = ds.length :=
  (mem_box.1 h).length_eq

theorem reverse_mem_box {ds x : List ℕ} : x.reverse ∈ box ds.reverse ↔ x ∈ box ds := by
  rw [mem_box, mem_box, List.forall₂_reverse_iff]

theorem sum_box_reverse (ds : List ℕ) (f : List ℕ → M) :
    ∑ x ∈ box ds.reverse, f x = ∑ x ∈ box ds, f x.reverse :=
  Finset.sum_nbij' List.reverse List.reverse
    (fun x hx => by rw [← reverse_mem_box]; simpa using hx)
    (fun x hx => reverse_mem_box.2 hx) (fun x _ => List.reverse_reverse x)
    (fun x _ => List.reverse_reverse x) (fun x _ => by rw [List.reverse_reverse])

theorem box_ones (n : ℕ) : box (List.replicate n 1) = {List.replicate n 0} := by
  ext x
  induction n generalizing x with
  | zero => simp [mem_box_nil]
  | succ n ih =>
    rw [List.replicate_succ, List.replicate_succ, mem_box_cons, Finset.mem_singleton]
    constructor
    · rintro ⟨k, xs, rfl, h1, h2⟩
      rw [ih, Finset.mem_singleton] at h2
      rw [h2, show k = 0 by omega]
    · rintro rfl
      exact ⟨0, _, rfl, by omega, (ih _).2 (Finset.mem_singleton_self _)⟩

theorem sum_box_ofFn {n : ℕ} (d : Fin n → ℕ) (f : List ℕ → M) :
    ∑ x ∈ box (List.ofFn d), f x =
      ∑ β ∈ Fintype.piFinset fun i => Finset.range (d i), f (List.ofFn β) := by
  refine (Finset.sum_nbij (fun β : Fin n → ℕ => List.ofFn β) ?_ ?_ ?_ ?_).symm
  · intro β hβ
    rw [mem_box, List.forall₂_iff_get]
    refine ⟨by simp, fun i h1 h2 => ?_⟩
    have := Fintype.mem_piFinset.1 hβ ⟨i, by simpa using h1⟩
    simpa using this
  · intro a _ b _ h; exact List.ofFn_injective h
  · intro x hx
    have hl := length_of_mem hx
    rw [List.length_ofFn] at hl
    subst hl
    refine ⟨x.get, ?_, List.ofFn_get x⟩
    rw [Finset.mem_coe, Fintype.mem_piFinset]
    intro i
    have := List.forall₂_iff_get.1 (mem_box.1 hx)
    have := this.2 i i.2 (by simp)
    simpa using this
  · intros; rfl

/-! ## paths -/

variable {α R : Type*} [CommSemiring R]

theorem sum_snoc {n : ℕ} (D : ℕ → Finset α) (G : (Fin (n + 1) → α) → M) :
    ∑ w ∈ Fintype.piFinset fun i : Fin (n + 1) => D i, G w =
      ∑ v ∈ Fintype.piFinset fun i : Fin n => D i, ∑ b ∈ D n,
        G (Fin.snoc (α := fun _ => α) v b) := by
  rw [← Finset.sum_product']
  refine (Finset.sum_nbij' (fun x => Fin.snoc (α := fun _ => α) x.1 x.2)
    (fun w => (fun i => w i.castSucc, w (Fin.last n))) ?_ ?_ ?_ ?_ ?_).symm
  · rintro ⟨v, b⟩ h
    rw [Finset.mem_product, Fintype.mem_piFinset] at h
    rw [Fintype.mem_piFinset]
    intro i
    refine Fin.lastCases ?_ (fun i => ?_) i
    · simpa using h.2
    · simpa using h.1 i
  · intro w h
    rw [Fintype.mem_piFinset] at h
    rw [Finset.mem_product, Fintype.mem_piFinset]
    exact ⟨fun i => h i.castSucc, h (Fin.last n)⟩
  · rintro ⟨v, b⟩ _; simp
  · intro w _
    funext i
    refine Fin.lastCases ?_ (fun i => ?_) i <;> simp
  · intros; rfl

theorem sum_cons {n : ℕ} (D : ℕ → Finset α) (G : (Fin (n + 1) → α) → M) :
    ∑ w ∈ Fintype.piFinset fun i : Fin (n + 1) => D i, G w =
      ∑ a ∈ D 0, ∑ v ∈ Fintype.piFinset fun i : Fin n => D (i + 1),
        G (Fin.cons (α := fun _ => α) a v) := by
  rw [← Finset.sum_product']
  refine (Finset.sum_nbij' (fun x => Fin.cons (α := fun _ => α) x.1 x.2)
    (fun w => (w 0, fun i => w i.succ)) ?_ ?_ ?_ ?_ ?_).symm
  · rintro ⟨b, v⟩ h
    rw [Finset.mem_product, Fintype.mem_piFinset] at h
    rw [Fintype.mem_piFinset]
    intro i
    refine Fin.cases ?_ (fun i => ?_) i
    · simpa using h.1
    · simpa using h.2 i
  · intro w h
    rw [Fintype.mem_piFinset] at h
    rw [Finset.mem_product, Fintype.mem_piFinset]
    exact ⟨h 0, fun i => h i.succ⟩
  · rintro ⟨v, b⟩ _; simp
  · intro w _
    funext i
    refine Fin.cases ?_ (fun i => ?_) i <;> simp
  · intros; rfl

/-- sum over all paths that end in `b` after `n` steps -/
def lvec (D : ℕ → Finset α) (f : ℕ → α → α → R) : ℕ → α → R
  | 0, _ => 1
  | n + 1, b => ∑ a ∈ D n, lvec D f n a * f n a b

theorem sum_lvec (D : ℕ → Finset α) (f : ℕ → α → α → R) (n : ℕ) (h : α → R) :
    ∑ b ∈ D n, lvec D f n b * h b =
      ∑ v ∈ Fintype.piFinset fun i : Fin (n + 1) => D i,
        (∏ i : Fin n, f i (v i.castSucc) (v i.succ)) * h (v (Fin.last n)) := by
  induction n generalizing h with
  | zero =>
    rw [sum_snoc]
    simp [lvec, Fin.snoc]
  | succ n ih =>
    rw [sum_snoc]
    have := ih fun a => ∑ b ∈ D (n + 1), f n a b * h b
    simp only [Fin.prod_univ_castSucc]
    simp only [lvec, Finset.sum_mul]
    rw [Finset.sum_comm]
    simp only [Finset.mul_sum] at this
    simp only [mul_assoc]
    rw [this]
    refine Finset.sum_congr rfl fun v _ => Finset.sum_congr rfl fun b _ => ?_
    simp only [Fin.succ_last, Fin.snoc_last, ← Fin.castSucc_succ, Fin.snoc_castSucc, Fin.val_castSucc,
      Fin.val_last]

/-- sum over all paths of `n` steps that start in `a` -/
def rvec : ℕ → (ℕ → Finset α) → (ℕ → α → α → R) → α → R
  | 0, _, _, _ => 1
  | n + 1, D, f, a => ∑ b ∈ D 1, f 0 a b * rvec n (fun i => D (i + 1)) (fun i => f (i + 1)) b

theorem sum_rvec (n : ℕ) (D : ℕ → Finset α) (f : ℕ → α → α → R) (h : α → R) :
    ∑ a ∈ D 0, h a * rvec n D f a =
      ∑ v ∈ Fintype.piFinset fun i : Fin (n + 1) => D i,
        h (v 0) * ∏ i : Fin n, f i (v i.castSucc) (v i.succ) := by
  induction n generalizing D f h with
  | zero =>
    rw [sum_cons]
    simp [rvec]
  | succ n ih =>
    rw [sum_cons]
    have := ih (fun i => D (i + 1)) (fun i => f (i + 1)) fun b => ∑ a ∈ D 0, h a * f 0 a b
    simp only [Fin.prod_univ_succ]
    simp only [rvec, Finset.mul_sum]
    rw [Finset.sum_comm]
    simp only [Finset.sum_mul] at this
    simp only [← mul_assoc]
    refine this.trans ?_
    rw [Finset.sum_comm]
    refine Finset.sum_congr rfl fun v _ => Finset.sum_congr rfl fun b _ => ?_
    simp

end QLPeps.Box
