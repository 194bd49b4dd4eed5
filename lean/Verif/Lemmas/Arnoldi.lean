import Verif.Spec.Arnoldi
import Mathlib.Data.List.GetD
import Mathlib.Tactic.Linarith
import Mathlib.Tactic.FieldSimp

/-!
# Lemmas: Arnoldi's method
-/

namespace QLPeps.Arnoldi

open Spec

variable {𝕜 : Type*} [RCLike 𝕜] {m : ℕ}

theorem combine_sum (bs : List (Vec 𝕜 m)) (y : ℕ → 𝕜) :
    combine bs y = ∑ i ∈ Finset.range bs.length, y i • bs.getD i 0 := by
  induction bs generalizing y with
  | nil => simp [combine]
  | cons b bs ih =>
    rw [combine, ih, List.length_cons, Finset.sum_range_succ', add_comm]
    simp

/-- the list is orthonormal -/
def ON (bs : List (Vec 𝕜 m)) : Prop :=
  ∀ i < bs.length, ∀ j < bs.length, inner 𝕜 (bs.getD i 0) (bs.getD j 0) = if i = j then (1 : 𝕜) else 0

theorem ON.tail {b : Vec 𝕜 m} {bs : List (Vec 𝕜 m)} (h : ON (b :: bs)) : ON bs := by
  intro i hi j hj
  have := h (i + 1) (by simpa using hi) (j + 1) (by simpa using hj)
  simpa using this

theorem ON.inner_combine {bs : List (Vec 𝕜 m)} (h : ON bs) {i : ℕ} (hi : i < bs.length) (y : ℕ → 𝕜) :
    inner 𝕜 (bs.getD i 0) (combine bs y) = y i := by
  rw [combine_sum, inner_sum, Finset.sum_eq_single i]
  · rw [inner_smul_right, h i hi i hi, if_pos rfl, mul_one]
  · intro j hj hne
    rw [inner_smul_right, h i hi j (Finset.mem_range.1 hj), if_neg hne.symm, mul_zero]
  · intro h'
    exact absurd (Finset.mem_range.2 hi) h'

theorem ON.norm_combine {bs : List (Vec 𝕜 m)} (h : ON bs) (y : ℕ → 𝕜) :
    ‖combine bs y‖ ^ 2 = ∑ i ∈ Finset.range bs.length, ‖y i‖ ^ 2 := by
  have h1 : (inner 𝕜 (combine bs y) (combine bs y) : 𝕜) =
      ((∑ i ∈ Finset.range bs.length, ‖y i‖ ^ 2 : ℝ) : 𝕜) := by
    conv_lhs => rw [combine_sum (y := y) (bs := bs)]
    rw [sum_inner]
    push_cast
    refine Finset.sum_congr rfl fun i hi => ?_
    rw [inner_smul_left, ← combine_sum, h.inner_combine (Finset.mem_range.1 hi), RCLike.conj_mul]
  rw [inner_self_eq_norm_sq_to_K] at h1
  exact_mod_cast h1

theorem orth_spec {bs : List (Vec 𝕜 m)} (h : ON bs) (x : Vec 𝕜 m) :
    (orth bs x).1.length = bs.length ∧
    x = combine bs (fun i => (orth bs x).1.getD i 0) + (orth bs x).2 ∧
    (∀ i < bs.length, inner 𝕜 (bs.getD i 0) (orth bs x).2 = 0) ∧
    (∀ c ∈ (orth bs x).1, ‖c‖ ≤ ‖x‖) ∧ ‖(orth bs x).2‖ ≤ ‖x‖ := by
  induction bs generalizing x with
  | nil => simp [orth, combine]
  | cons b bs ih =>
    have hb : inner 𝕜 b b = (1 : 𝕜) := by simpa using h 0 (by simp) 0 (by simp)
    have hbn : ‖b‖ = 1 := by
      have := inner_self_eq_norm_sq_to_K (𝕜 := 𝕜) b
      rw [hb] at this
      have h2 : ‖b‖ ^ 2 = 1 := by exact_mod_cast this.symm
      nlinarith [norm_nonneg b]
    have hbb : ∀ i < bs.length, inner 𝕜 b (bs.getD i 0) = (0 : 𝕜) := fun i hi => by
      have := h 0 (by simp) (i + 1) (by simpa using hi)
      simpa using this
    set c : 𝕜 := inner 𝕜 b x with hc
    obtain ⟨e1, e2, e3, e4, e5⟩ := ih h.tail (x + (-c) • b)
    have horth : inner 𝕜 b (x + (-c) • b) = (0 : 𝕜) := by
      rw [inner_add_right, inner_smul_right, hb, ← hc]
      ring
    have hcx : ‖c‖ ≤ ‖x‖ := by
      have := norm_inner_le_norm (𝕜 := 𝕜) b x
      rwa [hbn, one_mul] at this
    have hle : ‖x + (-c) • b‖ ≤ ‖x‖ := by
      have hx : x = (x + (-c) • b) + c • b := by rw [neg_smul, neg_add_cancel_right]
      have h2 : ‖x‖ * ‖x‖ = ‖x + (-c) • b‖ * ‖x + (-c) • b‖ + ‖c • b‖ * ‖c • b‖ := by
        conv_lhs => rw [hx]
        refine norm_add_sq_eq_norm_sq_add_norm_sq_of_inner_eq_zero (𝕜 := 𝕜) _ _ ?_
        rw [inner_smul_right, ← inner_conj_symm, horth]
        simp
      nlinarith [norm_nonneg x, norm_nonneg (x + (-c) • b), norm_nonneg (c • b)]
    simp only [orth, ← hc]
    refine ⟨by rw [List.length_cons, e1, List.length_cons], ?_, ?_, ?_, e5.trans hle⟩
    · rw [combine]
      simp only [List.getD_cons_zero, List.getD_cons_succ]
      rw [add_assoc, ← e2, neg_smul]
      abel
    · intro i hi
      cases i with
      | zero =>
        simp only [List.getD_cons_zero]
        have h3 : (orth bs (x + (-c) • b)).2 = (x + (-c) • b) -
            combine bs (fun i => (orth bs (x + (-c) • b)).1.getD i 0) :=
          eq_sub_of_add_eq' e2.symm
        rw [h3, inner_sub_right, horth, combine_sum, inner_sum, Finset.sum_eq_zero, sub_zero]
        intro j hj
        rw [inner_smul_right, hbb j (Finset.mem_range.1 hj), mul_zero]
      | succ i =>
        simp only [List.getD_cons_succ]
        exact e3 i (by simpa using hi)
    · intro d hd
      rcases List.mem_cons.1 hd with rfl | hd
      · exact hcx
      · exact (e4 d hd).trans hle

theorem getLastD_eq {bs : List (Vec 𝕜 m)} (h : 0 < bs.length) :
    bs.getLastD 0 = bs.getD (bs.length - 1) 0 := by
  rcases List.eq_nil_or_concat bs with rfl | ⟨l, a, rfl⟩
  · simp at h
  · simp

/-- span of the basis vectors -/
def sp (bs : List (Vec 𝕜 m)) : Submodule 𝕜 (Vec 𝕜 m) := Submodule.span 𝕜 {b | b ∈ bs}

theorem mem_sp {bs : List (Vec 𝕜 m)} {i : ℕ} (h : i < bs.length) : bs.getD i 0 ∈ sp bs := by
  refine Submodule.subset_span ?_
  rw [List.getD_eq_getElem _ _ h]
  exact List.getElem_mem h

theorem combine_mem (bs : List (Vec 𝕜 m)) (y : ℕ → 𝕜) : combine bs y ∈ sp bs := by
  rw [combine_sum]
  exact Submodule.sum_mem _ fun i hi => Submodule.smul_mem _ _ (mem_sp (Finset.mem_range.1 hi))

theorem sp_combine {bs : List (Vec 𝕜 m)} {x : Vec 𝕜 m} (h : x ∈ sp bs) : ∃ y, x = combine bs y := by
  induction h using Submodule.span_induction with
  | mem x hx =>
    obtain ⟨i, hi, rfl⟩ := List.getElem_of_mem hx
    refine ⟨fun j => if j = i then 1 else 0, ?_⟩
    rw [combine_sum, Finset.sum_eq_single i]
    · rw [if_pos rfl, one_smul, List.getD_eq_getElem _ _ hi]
    · intro j _ h
      rw [if_neg h, zero_smul]
    · exact fun h => absurd (Finset.mem_range.2 hi) h
  | zero => exact ⟨fun _ => 0, by rw [combine_sum]; simp⟩
  | add x y _ _ hx hy =>
    obtain ⟨a, rfl⟩ := hx
    obtain ⟨b, rfl⟩ := hy
    refine ⟨fun i => a i + b i, ?_⟩
    simp only [combine_sum, add_smul, Finset.sum_add_distrib]
  | smul c x _ hx =>
    obtain ⟨a, rfl⟩ := hx
    refine ⟨fun i => c * a i, ?_⟩
    simp only [combine_sum, Finset.smul_sum, smul_smul]

/-- the state of the loop -/
structure Inv (A : Vec 𝕜 m →ₗ[𝕜] Vec 𝕜 m) (x : Vec 𝕜 m) (bases : List (Vec 𝕜 m))
    (cols : List (List 𝕜)) (maxh : ℝ) : Prop where
  pos : 0 < bases.length
  on : ON bases
  clen : cols.length + 1 = bases.length
  rel : ∀ j < cols.length, A (bases.getD j 0) = combine bases fun i => entry cols i j
  zero : ∀ j < cols.length, ∀ i, j + 1 < i → entry cols i j = 0
  below : ∀ i < bases.length, bases.getD i 0 ∈ krylov A x bases.length
  above : krylov A x bases.length ≤ sp bases
  nonneg : 0 ≤ maxh
  bound : ∀ C, 0 ≤ C → (∀ y, ‖A y‖ ≤ C * ‖y‖) → maxh ≤ C

theorem krylov_mono {A : Vec 𝕜 m →ₗ[𝕜] Vec 𝕜 m} {x : Vec 𝕜 m} {k k' : ℕ} (h : k ≤ k') :
    krylov A x k ≤ krylov A x k' :=
  Submodule.span_mono fun _ ⟨i, hi, e⟩ => ⟨i, hi.trans_le h, e⟩

theorem krylov_map {A : Vec 𝕜 m →ₗ[𝕜] Vec 𝕜 m} {x y : Vec 𝕜 m} {k : ℕ} (h : y ∈ krylov A x k) :
    A y ∈ krylov A x (k + 1) := by
  induction h using Submodule.span_induction with
  | mem y hy =>
    obtain ⟨i, hi, rfl⟩ := hy
    refine Submodule.subset_span ⟨i + 1, by omega, ?_⟩
    rw [pow_succ']
    rfl
  | zero => rw [map_zero]; exact Submodule.zero_mem _
  | add y z _ _ hy hz => rw [map_add]; exact Submodule.add_mem _ hy hz
  | smul c y _ hy => rw [map_smul]; exact Submodule.smul_mem _ _ hy

theorem unit_smul {r : Vec 𝕜 m} (h : ‖r‖ ≠ 0) : ‖((1 / ‖r‖ : ℝ) : 𝕜) • r‖ = 1 := by
  rw [norm_smul, RCLike.norm_ofReal, abs_of_nonneg (by positivity)]
  field_simp

theorem foldl_max (l : List 𝕜) (a : ℝ) : a ≤ l.foldl (fun a c => max a ‖c‖) a ∧
    ∀ C, a ≤ C → (∀ c ∈ l, ‖c‖ ≤ C) → l.foldl (fun a c => max a ‖c‖) a ≤ C := by
  induction l generalizing a with
  | nil => exact ⟨le_rfl, fun C h _ => h⟩
  | cons c l ih =>
    obtain ⟨h1, h2⟩ := ih (max a ‖c‖)
    refine ⟨(le_max_left _ _).trans h1, fun C hC hl => h2 C (max_le hC (hl c (by simp))) fun d hd => hl d
      (by simp [hd])⟩

theorem combine_append (bs : List (Vec 𝕜 m)) (b : Vec 𝕜 m) (y : ℕ → 𝕜) :
    combine (bs ++ [b]) y = combine bs y + y bs.length • b := by
  induction bs generalizing y with
  | nil => simp [combine]
  | cons c bs ih => simp [combine, ih, add_assoc]

theorem combine_congr {bs : List (Vec 𝕜 m)} {y z : ℕ → 𝕜} (h : ∀ i < bs.length, y i = z i) :
    combine bs y = combine bs z := by
  rw [combine_sum, combine_sum]
  exact Finset.sum_congr rfl fun i hi => by rw [h i (Finset.mem_range.1 hi)]

theorem entry_old {cols : List (List 𝕜)} {c : List 𝕜} {i j : ℕ} (h : j < cols.length) :
    entry (cols ++ [c]) i j = entry cols i j := by
  rw [entry, entry, List.getD_append _ _ _ _ h]

theorem entry_new {cols : List (List 𝕜)} {c : List 𝕜} {i : ℕ} :
    entry (cols ++ [c]) i cols.length = c.getD i 0 := by
  rw [entry, List.getD_append_right _ _ _ _ le_rfl]
  simp

variable {A : Vec 𝕜 m →ₗ[𝕜] Vec 𝕜 m} {x : Vec 𝕜 m} {bases : List (Vec 𝕜 m)} {cols : List (List 𝕜)}
  {maxh : ℝ}

/-- images of the basis vectors before the last -/
theorem Inv.image (h : Inv A x bases cols maxh) {c : 𝕜} (y : ℕ → 𝕜) :
    let o := orth bases (A (bases.getLastD 0))
    A (combine bases y) = combine bases (fun i => ∑ j ∈ Finset.range bases.length,
      entry (cols ++ [o.1 ++ [c]]) i j * y j) + y (bases.length - 1) • o.2 := by
  intro o
  obtain ⟨o1, o2, o3, o4, o5⟩ := orth_spec h.on (A (bases.getLastD 0))
  have hk : bases.length = cols.length + 1 := h.clen.symm
  have hcol : ∀ j < cols.length, A (bases.getD j 0) =
      combine bases fun i => entry (cols ++ [o.1 ++ [c]]) i j := fun j hj => by
    rw [h.rel j hj]
    exact combine_congr fun i _ => (entry_old hj).symm
  have hlast : A (bases.getD cols.length 0) =
      combine bases (fun i => entry (cols ++ [o.1 ++ [c]]) i cols.length) + o.2 := by
    have : bases.getLastD 0 = bases.getD cols.length 0 := by
      rw [getLastD_eq h.pos, hk, Nat.add_sub_cancel]
    rw [this] at o2
    conv_lhs => rw [o2]
    rw [← this]
    congr 1
    refine combine_congr fun i hi => ?_
    rw [entry_new, List.getD_append _ _ _ _ (by rw [o1]; exact hi)]
  have e : A (combine bases y) = ∑ j ∈ Finset.range bases.length, y j • A (bases.getD j 0) := by
    rw [combine_sum, map_sum]
    exact Finset.sum_congr rfl fun j _ => map_smul _ _ _
  rw [e, hk, Nat.add_sub_cancel, Finset.sum_range_succ, hlast, smul_add, ← add_assoc]
  congr 1
  rw [Finset.sum_congr rfl fun j hj => by rw [hcol j (Finset.mem_range.1 hj)],
    ← Finset.sum_range_succ (fun j => y j • combine bases fun i => entry (cols ++ [o.1 ++ [c]]) i j)]
  simp only [combine_sum, Finset.smul_sum, smul_smul]
  rw [Finset.sum_comm]
  refine Finset.sum_congr rfl fun i _ => ?_
  rw [Finset.sum_smul]
  exact Finset.sum_congr rfl fun j _ => by rw [mul_comm]

theorem Inv.next (h : Inv A x bases cols maxh) :
    let o := orth bases (A (bases.getLastD 0))
    ‖o.2‖ ≠ 0 →
    Inv A x (bases ++ [((1 / ‖o.2‖ : ℝ) : 𝕜) • o.2]) (cols ++ [o.1 ++ [(‖o.2‖ : 𝕜)]])
      (max (o.1.foldl (fun a c => max a ‖c‖) maxh) ‖o.2‖) := by
  intro o hne
  obtain ⟨o1, o2, o3, o4, o5⟩ := orth_spec h.on (A (bases.getLastD 0))
  have hk : bases.length = cols.length + 1 := h.clen.symm
  have hlast : bases.getLastD 0 = bases.getD cols.length 0 := by
    rw [getLastD_eq h.pos, hk, Nat.add_sub_cancel]
  have hu := unit_smul (𝕜 := 𝕜) hne
  have hback : (‖o.2‖ : 𝕜) • ((1 / ‖o.2‖ : ℝ) : 𝕜) • o.2 = o.2 := by
    rw [smul_smul, ← RCLike.ofReal_mul]
    rw [show ‖o.2‖ * (1 / ‖o.2‖) = 1 by field_simp, RCLike.ofReal_one, one_smul]
  have hold : ∀ i < bases.length, (bases ++ [((1 / ‖o.2‖ : ℝ) : 𝕜) • o.2]).getD i 0 = bases.getD i 0 :=
    fun i hi => List.getD_append _ _ _ _ hi
  have hnew : (bases ++ [((1 / ‖o.2‖ : ℝ) : 𝕜) • o.2]).getD bases.length 0 =
      ((1 / ‖o.2‖ : ℝ) : 𝕜) • o.2 := by
    rw [List.getD_append_right _ _ _ _ le_rfl]
    simp
  have himg : ∀ y ∈ sp bases, A y ∈ sp (bases ++ [((1 / ‖o.2‖ : ℝ) : 𝕜) • o.2]) := by
    intro y hy
    obtain ⟨a, rfl⟩ := sp_combine hy
    rw [h.image (c := 0)]
    have hsub : sp bases ≤ sp (bases ++ [((1 / ‖o.2‖ : ℝ) : 𝕜) • o.2]) :=
      Submodule.span_mono fun b hb => by simp at hb ⊢; exact .inl hb
    refine Submodule.add_mem _ (hsub (combine_mem _ _)) (Submodule.smul_mem _ _ ?_)
    have hm : (‖o.2‖ : 𝕜) • ((1 / ‖o.2‖ : ℝ) : 𝕜) • o.2 ∈
        sp (bases ++ [((1 / ‖o.2‖ : ℝ) : 𝕜) • o.2]) :=
      Submodule.smul_mem _ _ (Submodule.subset_span (List.mem_append_right _ (List.mem_singleton_self _)))
    rwa [hback] at hm
  have hrk : o.2 ∈ krylov A x (bases.length + 1) := by
    have e : o.2 = A (bases.getLastD 0) - combine bases (fun i => o.1.getD i 0) :=
      eq_sub_of_add_eq' o2.symm
    rw [e]
    refine Submodule.sub_mem _ (krylov_map ?_) ?_
    · rw [hlast]
      exact h.below _ (by omega)
    · rw [combine_sum]
      exact Submodule.sum_mem _ fun i hi => Submodule.smul_mem _ _
        (krylov_mono (Nat.le_succ _) (h.below i (Finset.mem_range.1 hi)))
  refine ⟨by simp, ?_, by simp [h.clen], ?_, ?_, ?_, ?_, ?_, ?_⟩
  · intro i hi j hj
    rw [List.length_append, List.length_singleton] at hi hj
    rcases Nat.lt_succ_iff_lt_or_eq.1 hi with hi | rfl <;>
      rcases Nat.lt_succ_iff_lt_or_eq.1 hj with hj | rfl
    · rw [hold i hi, hold j hj]
      exact h.on i hi j hj
    · rw [hold i hi, hnew, inner_smul_right, o3 i hi, mul_zero, if_neg hi.ne]
    · rw [hold j hj, hnew, inner_smul_left, ← inner_conj_symm, o3 j hj, if_neg hj.ne']
      simp
    · rw [hnew, if_pos rfl, inner_self_eq_norm_sq_to_K, hu]
      simp
  · intro j hj
    rw [List.length_append, List.length_singleton] at hj
    rw [combine_append]
    rcases Nat.lt_succ_iff_lt_or_eq.1 hj with hj | rfl
    · rw [hold j (by omega), h.rel j hj, entry_old hj, h.zero j hj _ (by omega), zero_smul, add_zero]
      exact combine_congr fun i _ => (entry_old hj).symm
    · rw [hold _ (by omega), entry_new, List.getD_append_right _ _ _ _ (by rw [o1]), o1, Nat.sub_self,
        List.getD_cons_zero, hback]
      have := o2
      rw [hlast] at this
      conv_lhs => rw [this]
      rw [← hlast]
      congr 1
      refine combine_congr fun i hi => ?_
      rw [entry_new, List.getD_append _ _ _ _ (by rw [o1]; exact hi)]
  · intro j hj i hi
    rw [List.length_append, List.length_singleton] at hj
    rcases Nat.lt_succ_iff_lt_or_eq.1 hj with hj | rfl
    · rw [entry_old hj, h.zero j hj i hi]
    · rw [entry_new, List.getD_eq_default]
      rw [List.length_append, o1, List.length_singleton]
      omega
  · intro i hi
    rw [List.length_append, List.length_singleton] at hi ⊢
    rcases Nat.lt_succ_iff_lt_or_eq.1 hi with hi | rfl
    · rw [hold i hi]
      exact krylov_mono (Nat.le_succ _) (h.below i hi)
    · rw [hnew]
      exact Submodule.smul_mem _ _ hrk
  · rw [List.length_append, List.length_singleton]
    refine Submodule.span_le.2 ?_
    rintro _ ⟨i, hi, rfl⟩
    cases i with
    | zero =>
      have h0 : (A ^ 0) x ∈ krylov A x bases.length := Submodule.subset_span ⟨0, h.pos, rfl⟩
      have hsub : sp bases ≤ sp (bases ++ [((1 / ‖o.2‖ : ℝ) : 𝕜) • o.2]) :=
        Submodule.span_mono fun b hb => by simp at hb ⊢; exact .inl hb
      exact hsub (h.above h0)
    | succ i =>
      rw [pow_succ']
      exact himg _ (h.above (Submodule.subset_span ⟨i, by omega, rfl⟩))
  · exact (h.nonneg.trans (foldl_max _ _).1).trans (le_max_left _ _)
  · intro C hC hA
    have hx : ‖A (bases.getLastD 0)‖ ≤ C := by
      have h1 : ‖bases.getLastD 0‖ = 1 := by
        have := h.on cols.length (by omega) cols.length (by omega)
        rw [if_pos rfl, ← hlast, inner_self_eq_norm_sq_to_K] at this
        have h2 : ‖bases.getLastD 0‖ ^ 2 = 1 := by exact_mod_cast this
        nlinarith [norm_nonneg (bases.getLastD 0)]
      have := hA (bases.getLastD 0)
      rwa [h1, mul_one] at this
    exact max_le ((foldl_max _ _).2 C (h.bound C hC hA) fun c hc => (o4 c hc).trans hx) (o5.trans hx)

end QLPeps.Arnoldi
