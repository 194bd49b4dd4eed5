import Mathlib.Tactic
import Mathlib.Data.List.Nodup
import Verif.Model.Evaluator
import Verif.Spec.Evaluator

namespace QLPeps.Evaluator

open Finset

/-! ### Striping -/

theorem mem_strided (n step : ℕ) (hs : 0 < step) (i j : ℕ) :
    j ∈ strided n step i ↔ j < n ∧ ∃ k, j = i + k * step := by
  induction i using strided.induct n step with
  | case1 i h ih =>
    rw [strided, dif_pos h, List.mem_cons, ih]
    constructor
    · rintro (rfl | ⟨hj, k, rfl⟩)
      · exact ⟨h.1, 0, by simp⟩
      · exact ⟨hj, k + 1, by ring⟩
    · rintro ⟨hj, k, rfl⟩
      rcases k with _ | k
      · left; simp
      · right; exact ⟨hj, k, by ring⟩
  | case2 i h =>
    rw [strided, dif_neg h]
    simp only [List.not_mem_nil, false_iff, not_and, not_exists]
    rintro hj k rfl
    exact h ⟨lt_of_le_of_lt (Nat.le_add_right _ _) hj, hs⟩

theorem nodup_strided (n step : ℕ) (hs : 0 < step) (i : ℕ) : (strided n step i).Nodup := by
  induction i using strided.induct n step with
  | case1 i h ih =>
    rw [strided, dif_pos h, List.nodup_cons]
    refine ⟨fun hm => ?_, ih⟩
    obtain ⟨_, k, hk⟩ := (mem_strided n step hs _ _).1 hm
    omega
  | case2 i h => rw [strided, dif_neg h]; exact List.nodup_nil

theorem strided_perm (n size : ℕ) (hs : 0 < size) :
    ((List.range size).flatMap (strided n size)).Perm (List.range n) := by
  rw [List.perm_ext_iff_of_nodup _ List.nodup_range]
  · intro j
    simp only [List.mem_flatMap, List.mem_range, mem_strided n size hs]
    constructor
    · rintro ⟨r, _, hj, _⟩; exact hj
    · intro hj
      exact ⟨j % size, Nat.mod_lt _ hs, hj, j / size, by rw [Nat.mul_comm]; exact (Nat.mod_add_div j size).symm⟩
  · rw [List.nodup_flatMap]
    refine ⟨fun r _ => nodup_strided n size hs r, ?_⟩
    refine List.Pairwise.imp_of_mem ?_ (List.nodup_range (n := size))
    intro a b ha hb hab
    rw [Function.onFun, List.disjoint_left]
    intro j hja hjb
    obtain ⟨_, k, hk⟩ := (mem_strided n size hs _ _).1 hja
    obtain ⟨_, l, hl⟩ := (mem_strided n size hs _ _).1 hjb
    have h1 : j % size = a := by
      rw [hk, Nat.add_mul_mod_self_right, Nat.mod_eq_of_lt (List.mem_range.1 ha)]
    have h2 : j % size = b := by
      rw [hl, Nat.add_mul_mod_self_right, Nat.mod_eq_of_lt (List.mem_range.1 hb)]
    exact hab (h1.symm.trans h2)

theorem list_sum_range {M : Type*} [AddCommMonoid M] (n : ℕ) (f : ℕ → M) :
    ((List.range n).map f).sum = ∑ i ∈ range n, f i := rfl

theorem list_sum_flatMap {α M : Type*} [AddCommMonoid M] (l : List α) (g : α → List ℕ) (f : ℕ → M) :
    ((l.flatMap g).map f).sum = (l.map (fun r => ((g r).map f).sum)).sum := by
  induction l with
  | nil => simp
  | cons a l ih => simp [ih]

theorem sum_strided {M : Type*} [AddCommMonoid M] (n size : ℕ) (hs : 0 < size) (f : ℕ → M) :
    ((List.range size).map (fun r => ((strided n size r).map f).sum)).sum = ∑ i ∈ range n, f i := by
  rw [← list_sum_flatMap, ((strided_perm n size hs).map f).sum_eq, list_sum_range]

theorem foldl_add {α M : Type*} [AddCommMonoid M] (l : List α) (f : α → M) (a : M) :
    l.foldl (fun s x => s + f x) a = a + (l.map f).sum := by
  induction l generalizing a with
  | nil => simp
  | cons x l ih => simp [ih, add_assoc]

section exact

variable {ι X : Type*} {𝕜 : Type*} [RCLike 𝕜] [DecidableEq ι]

theorem foldl_step (l : List ℕ) (eval : ℕ → Sample ι X 𝕜) (a : Acc ι X 𝕜) :
    let c := l.foldl (fun a i => a.step (eval i)) a
    (∀ r b x, c.so r b x = a.so r b x + (l.map (fun i => increment (eval i) r b x)).sum) ∧
    (∀ r b x, c.seo r b x
      = a.seo r b x + (l.map (fun i => star (eval i).eloc * increment (eval i) r b x)).sum) ∧
    c.eloc = a.eloc + (l.map (fun i => (eval i).eloc * ((‖(eval i).amplitude‖ ^ 2 : ℝ) : 𝕜))).sum ∧
    c.weight = a.weight + (l.map (fun i => ‖(eval i).amplitude‖ ^ 2)).sum := by
  induction l generalizing a with
  | nil => simp
  | cons j l ih =>
    obtain ⟨h1, h2, h3, h4⟩ := ih (a.step (eval j))
    simp only [List.foldl_cons]
    refine ⟨fun r b x => ?_, fun r b x => ?_, ?_, ?_⟩
    · rw [h1]; simp [Acc.step, add_assoc]
    · rw [h2]; simp [Acc.step, add_assoc]
    · rw [h3]; simp [Acc.step, add_assoc]
    · rw [h4]; simp [Acc.step, add_assoc]

theorem receive_ok (size : ℕ) (accs : ℕ → Acc ι X 𝕜) (l : List ℕ) (so seo : Tps ι X 𝕜) :
    l.foldl (receiveFrom size accs) (some (so, seo))
      = some (fun r k x => so r k x + (l.map (fun i => (accs i).so r k x)).sum,
              fun r k x => seo r k x + (l.map (fun i => (accs i).seo r k x)).sum) := by
  induction l generalizing so seo with
  | nil => simp
  | cons j l ih =>
    rw [List.foldl_cons]
    have : receiveFrom size accs (some (so, seo)) j
        = some (fun r k x => so r k x + (accs j).so r k x, fun r k x => seo r k x + (accs j).seo r k x) := by
      simp [receiveFrom, recv, sent]
    rw [this, ih]
    simp [add_assoc]

theorem range_head (size : ℕ) (hs : 0 < size) : List.range size = 0 :: List.range' 1 (size - 1) := by
  obtain ⟨k, rfl⟩ : ∃ k, size = k + 1 := ⟨size - 1, by omega⟩
  rw [List.range_eq_range', List.range'_succ]; simp

/-- All four reduced quantities as plain sums over the configurations. -/
theorem exactSum_eq (eval : ℕ → Sample ι X 𝕜) (n size : ℕ) (hs : 0 < size) :
    exactSum eval n size =
      some ((∑ i ∈ range n, (eval i).eloc * ((‖(eval i).amplitude‖ ^ 2 : ℝ) : 𝕜))
              / ((∑ i ∈ range n, ‖(eval i).amplitude‖ ^ 2 : ℝ) : 𝕜),
        fun r b x =>
          ((∑ i ∈ range n, star (eval i).eloc * increment (eval i) r b x)
            - star ((∑ i ∈ range n, (eval i).eloc * ((‖(eval i).amplitude‖ ^ 2 : ℝ) : 𝕜))
              / ((∑ i ∈ range n, ‖(eval i).amplitude‖ ^ 2 : ℝ) : 𝕜))
              * ∑ i ∈ range n, increment (eval i) r b x)
            * ((1 / (∑ i ∈ range n, ‖(eval i).amplitude‖ ^ 2) : ℝ) : 𝕜)) := by
  have acc : ∀ k, _ := fun k => foldl_step (strided n size k) eval (Acc.zero : Acc ι X 𝕜)
  have hw : (List.range size).foldl (fun s r => s + (rankAcc eval n size r).weight) 0
      = ∑ i ∈ range n, ‖(eval i).amplitude‖ ^ 2 := by
    rw [foldl_add, zero_add, ← sum_strided n size hs]
    congr 1; apply List.map_congr_left; intro k _
    exact (acc k).2.2.2.trans (by simp [Acc.zero])
  have he : (List.range size).foldl (fun s r => s + (rankAcc eval n size r).eloc) 0
      = ∑ i ∈ range n, (eval i).eloc * ((‖(eval i).amplitude‖ ^ 2 : ℝ) : 𝕜) := by
    rw [foldl_add, zero_add, ← sum_strided n size hs]
    congr 1; apply List.map_congr_left; intro k _
    exact (acc k).2.2.1.trans (by simp [Acc.zero])
  have ho : ∀ r b x, (rankAcc eval n size 0).so r b x
      + ((List.range' 1 (size - 1)).map (fun i => (rankAcc eval n size i).so r b x)).sum
      = ∑ i ∈ range n, increment (eval i) r b x := by
    intro r b x
    rw [← sum_strided n size hs, ← List.sum_cons, ← List.map_cons (f := fun i => (rankAcc eval n size i).so r b x), ← range_head size hs]
    congr 1; apply List.map_congr_left; intro k _
    exact ((acc k).1 r b x).trans (by simp [Acc.zero])
  have heo : ∀ r b x, (rankAcc eval n size 0).seo r b x
      + ((List.range' 1 (size - 1)).map (fun i => (rankAcc eval n size i).seo r b x)).sum
      = ∑ i ∈ range n, star (eval i).eloc * increment (eval i) r b x := by
    intro r b x
    rw [← sum_strided n size hs, ← List.sum_cons, ← List.map_cons (f := fun i => (rankAcc eval n size i).seo r b x), ← range_head size hs]
    congr 1; apply List.map_congr_left; intro k _
    exact ((acc k).2.1 r b x).trans (by simp [Acc.zero])
  unfold exactSum
  dsimp only
  rw [receive_ok]
  dsimp only
  simp only [hw, he, ho, heo]

end exact

end QLPeps.Evaluator
