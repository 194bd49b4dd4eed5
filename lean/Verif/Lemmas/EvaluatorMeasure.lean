import Mathlib.Tactic
import Verif.Lemmas.Evaluator

namespace QLPeps.Evaluator

open Finset

variable {Key : Type*} [DecidableEq Key] {𝕜 : Type*} [RCLike 𝕜]

/-- `l` has `m` entries, given by `f`. -/
def IsVec (l : List 𝕜) (m : ℕ) (f : ℕ → 𝕜) : Prop := l.length = m ∧ ∀ j, j < m → l.getD j 0 = f j

/-- The table holds key `k` as the vector `f`, or holds it not and `f` is zero. -/
def Holds (o : Option (List 𝕜)) (m : ℕ) (f : ℕ → 𝕜) : Prop :=
  (∃ l, o = some l ∧ IsVec l m f) ∨ (o = none ∧ ∀ j, j < m → f j = 0)

theorem addWeighted_ok (w : ℝ) (o : Option (List 𝕜)) (values : List 𝕜) (m : ℕ) (f : ℕ → 𝕜)
    (ho : Holds o m f) (hv : values.length = m) :
    ∃ l, addWeighted w (o.getD []) values = some l ∧
      IsVec l m (fun j => f j + (w : 𝕜) * values.getD j 0) := by
  unfold addWeighted
  dsimp only
  set acc : List 𝕜 := if o.getD [] = [] then List.replicate values.length 0 else o.getD [] with hacc
  have hA : IsVec acc m f := by
    rcases ho with ⟨l, rfl, h1, h2⟩ | ⟨rfl, h2⟩
    · rw [hacc]
      simp only [Option.getD_some]
      by_cases h : l = []
      · subst h
        simp only [List.length_nil] at h1
        subst h1
        rw [if_pos rfl, hv]
        exact ⟨by simp, fun j hj => absurd hj (Nat.not_lt_zero _)⟩
      · rw [if_neg h]; exact ⟨h1, h2⟩
    · rw [hacc, Option.getD_none, if_pos rfl, hv]
      exact ⟨by simp, fun j hj => by rw [h2 j hj]; simp [List.getD_eq_getElem?_getD, hj]⟩
  rw [if_neg (by rw [hA.1, hv]; omega)]
  refine ⟨_, rfl, by simp [hA.1], fun j hj => ?_⟩
  have hj' : j < acc.length := by rw [hA.1]; exact hj
  dsimp only
  rw [← hA.2 j hj]
  simp [List.getD_eq_getElem?_getD, hj']

theorem accKey_foldl (w : ℝ) (len : Key → ℕ) (o : Obs Key 𝕜) (hnd : (o.map Prod.fst).Nodup)
    (hl : ∀ kv ∈ o, kv.2.length = len kv.1) (t : Table Key 𝕜) (f : Key → ℕ → 𝕜)
    (ht : ∀ k, Holds (t k) (len k) (f k)) :
    ∃ t', o.foldl (accKey w) (some t) = some t' ∧
      (∀ k, k ∉ o.map Prod.fst → t' k = t k) ∧
      (∀ k, k ∈ o.map Prod.fst →
        ∃ l, t' k = some l ∧ IsVec l (len k) (fun j => f k j + (w : 𝕜) * valueAt o k j)) := by
  induction o generalizing t f with
  | nil => exact ⟨t, rfl, fun _ _ => rfl, fun k hk => absurd hk (by simp)⟩
  | cons kv o ih =>
    obtain ⟨k0, v0⟩ := kv
    rw [List.map_cons, List.nodup_cons] at hnd
    obtain ⟨hk0, hnd⟩ := hnd
    obtain ⟨l0, hl0, hv0⟩ := addWeighted_ok w (t k0) v0 (len k0) (f k0) (ht k0)
      (hl (k0, v0) List.mem_cons_self)
    have hstep : accKey w (some t) (k0, v0) = some (fun k => if k = k0 then some l0 else t k) := by
      simp [accKey, hl0]
    obtain ⟨t', h1, h2, h3⟩ := ih hnd (fun kv hkv => hl kv (List.mem_cons_of_mem _ hkv))
      (fun k => if k = k0 then some l0 else t k)
      (fun k => if k = k0 then (fun j => f k0 j + (w : 𝕜) * v0.getD j 0) else f k)
      (by
        intro k
        by_cases h : k = k0
        · subst h; simp only [if_true]; exact Or.inl ⟨l0, rfl, hv0⟩
        · simp only [if_neg h]; exact ht k)
    refine ⟨t', by rw [List.foldl_cons, hstep, h1], ?_, ?_⟩
    · intro k hk
      rw [List.map_cons, List.mem_cons, not_or] at hk
      rw [h2 k hk.2, if_neg hk.1]
    · intro k hk
      by_cases h : k = k0
      · subst h
        rw [h2 k hk0, if_pos rfl]
        refine ⟨l0, rfl, hv0.1, fun j hj => ?_⟩
        rw [hv0.2 j hj]
        simp [valueAt, List.lookup]
      · rw [List.map_cons, List.mem_cons] at hk
        obtain ⟨l, e1, e2⟩ := h3 k (hk.resolve_left h)
        refine ⟨l, e1, e2.1, fun j hj => ?_⟩
        rw [e2.2 j hj]
        simp only [if_neg h]
        have : (k == k0) = false := by simpa using h
        simp [valueAt, List.lookup, this]

theorem measure_foldl (eval : ℕ → 𝕜 × Obs Key 𝕜) (keys : Key → Prop) (len : Key → ℕ) (l : List ℕ)
    (hd : ∀ i ∈ l, Declares keys len (eval i).2) (w0 : ℝ) (t : Table Key 𝕜) (f : Key → ℕ → 𝕜)
    (ht : ∀ k, Holds (t k) (len k) (f k)) (hk : ∀ k, ¬ keys k → t k = none) :
    ∃ t', l.foldl (fun st i => measureStep st (eval i)) (w0, some t)
        = (w0 + (l.map (fun i => ‖(eval i).1‖ ^ 2)).sum, some t') ∧
      (∀ k, ¬ keys k → t' k = none) ∧
      (l ≠ [] → ∀ k, keys k → t' k ≠ none) ∧
      (∀ k, keys k → Holds (t' k) (len k)
        (fun j => f k j + (l.map (fun i => ((‖(eval i).1‖ ^ 2 : ℝ) : 𝕜) * valueAt (eval i).2 k j)).sum)) ∧
      (∀ k, ¬ keys k → Holds (t' k) (len k) (f k)) := by
  induction l generalizing w0 t f with
  | nil =>
    refine ⟨t, by simp, hk, fun h => absurd rfl h, fun k _ => ?_, fun k _ => ht k⟩
    simpa using ht k
  | cons i l ih =>
    obtain ⟨hnd, hkeys, hlen⟩ := hd i List.mem_cons_self
    obtain ⟨t1, h1, h2, h3⟩ := accKey_foldl (‖(eval i).1‖ ^ 2) len (eval i).2 hnd hlen t f ht
    have hH : ∀ k, keys k → Holds (t1 k) (len k)
        (fun j => f k j + ((‖(eval i).1‖ ^ 2 : ℝ) : 𝕜) * valueAt (eval i).2 k j) := by
      intro k hk'
      exact Or.inl (h3 k ((hkeys k).1 hk'))
    classical
    obtain ⟨t', e1, e2, e3, e4, e5⟩ := ih (fun j hj => hd j (List.mem_cons_of_mem _ hj))
      (w0 + ‖(eval i).1‖ ^ 2) t1
      (fun k => if keys k then (fun j => f k j + ((‖(eval i).1‖ ^ 2 : ℝ) : 𝕜) * valueAt (eval i).2 k j)
        else f k)
      (by
        intro k
        by_cases hk' : keys k
        · simp only [if_pos hk']; exact hH k hk'
        · simp only [if_neg hk']
          rw [h2 k (fun hm => hk' ((hkeys k).2 hm))]; exact ht k)
      (by
        intro k hk'
        rw [h2 k (fun hm => hk' ((hkeys k).2 hm)), hk k hk'])
    refine ⟨t', ?_, e2, ?_, ?_, ?_⟩
    · rw [List.foldl_cons]
      have : measureStep (w0, some t) (eval i) = (w0 + ‖(eval i).1‖ ^ 2, some t1) := by
        unfold measureStep; rw [h1]
      rw [this, e1]
      simp [add_assoc]
    · intro _ k hk'
      by_cases hl : l = []
      · subst hl
        have hx : t' = t1 := by
          have := e1
          simp only [List.foldl_nil] at this
          exact (Option.some.inj (Prod.mk.inj this).2).symm
        obtain ⟨lk, hlk, _⟩ := h3 k ((hkeys k).1 hk')
        rw [hx, hlk]; simp
      · exact e3 hl k hk'
    · intro k hk'
      have := e4 k hk'
      simp only [if_pos hk'] at this
      simpa [add_assoc] using this
    · intro k hk'
      have := e5 k hk'
      simp only [if_neg hk'] at this
      exact this

/-- What one rank holds. -/
theorem measureRank_spec (eval : ℕ → 𝕜 × Obs Key 𝕜) (keys : Key → Prop) (len : Key → ℕ) (n size rank : ℕ)
    (hs : 0 < size) (hd : ∀ i, i < n → Declares keys len (eval i).2) :
    ∃ t, measureRank eval n size rank
        = (((strided n size rank).map (fun i => ‖(eval i).1‖ ^ 2)).sum, some t) ∧
      (∀ k, ¬ keys k → t k = none) ∧
      (strided n size rank ≠ [] → ∀ k, keys k → t k ≠ none) ∧
      (∀ k, keys k → Holds (t k) (len k) (fun j =>
        ((strided n size rank).map
          (fun i => ((‖(eval i).1‖ ^ 2 : ℝ) : 𝕜) * valueAt (eval i).2 k j)).sum)) := by
  obtain ⟨t, h1, h2, h3, h4, _⟩ := measure_foldl eval keys len (strided n size rank)
    (fun i hi => hd i ((mem_strided n size hs _ _).1 hi).1) 0 (fun _ => none) (fun _ _ => 0)
    (fun k => Or.inr ⟨rfl, fun _ _ => rfl⟩) (fun _ _ => rfl)
  refine ⟨t, ?_, h2, h3, ?_⟩
  · unfold measureRank; rw [h1]; simp
  · intro k hk; simpa using h4 k hk

theorem allTables_eq {α : Type*} (l : List α) (g : α → MState Key 𝕜) (tb : α → Table Key 𝕜)
    (h : ∀ a ∈ l, (g a).2 = some (tb a)) : allTables (l.map g) = some (l.map tb) := by
  induction l with
  | nil => rfl
  | cons a l ih =>
    rw [List.map_cons, allTables, h a List.mem_cons_self,
      ih (fun b hb => h b (List.mem_cons_of_mem _ hb))]
    rfl

theorem localBuf_vec (t : Table Key 𝕜) (m : ℕ) (k : Key) (f : ℕ → 𝕜) (h : Holds (t k) m f) :
    IsVec (localBuf t m k) m f := by
  unfold localBuf
  rcases h with ⟨l, e, hv⟩ | ⟨e, h0⟩
  · rw [e]; exact hv
  · rw [e]
    exact ⟨by simp, fun j hj => by rw [h0 j hj]; simp [List.getD_eq_getElem?_getD, hj]⟩

theorem reduceSum_vec {α : Type*} (m : ℕ) (l : List α) (buf : α → List 𝕜) (f : α → ℕ → 𝕜)
    (h : ∀ a ∈ l, IsVec (buf a) m (f a)) :
    ∃ r, reduceSum m (l.map buf) = some r ∧ IsVec r m (fun j => (l.map (fun a => f a j)).sum) := by
  unfold reduceSum
  rw [if_neg]
  · refine ⟨_, rfl, by simp, fun j hj => ?_⟩
    simp only [List.getD_eq_getElem?_getD, List.getElem?_ofFn, hj, dif_pos, Option.getD_some]
    have := foldl_add (l.map buf) (fun b => b[j]?.getD 0) 0
    rw [this, zero_add, List.map_map]
    congr 1
    apply List.map_congr_left
    intro a ha
    have := (h a ha).2 j hj
    rw [List.getD_eq_getElem?_getD] at this
    exact this
  · simp only [List.any_map, List.any_eq_true, Function.comp, decide_eq_true_eq, not_exists, not_and, not_lt]
    intro a ha
    exact (h a ha).1.ge

end QLPeps.Evaluator
