import Verif.Lemmas.TrgStep

/-!
# The last contraction is the value of the small torus
-/

namespace QLPeps.Trg

open QLPeps.Peps (Tn)

noncomputable section

variable {𝕜 : Type} [RCLike 𝕜]

/-- a sum over the labels of two kinds of bonds -/
theorem sum_sumtype {R B C : Type*} [CommSemiring R] [Fintype B] [DecidableEq B] [Fintype C] [DecidableEq C]
    (d : B ⊕ C → ℕ) (g : (B → ℕ) → (C → ℕ) → R) :
    ∑ β ∈ Fintype.piFinset (fun b => Finset.range (d b)), g (fun b => β (.inl b)) (fun c => β (.inr c)) =
      ∑ v ∈ Fintype.piFinset (fun c => Finset.range (d (.inr c))),
        ∑ h ∈ Fintype.piFinset (fun b => Finset.range (d (.inl b))), g h v := by
  rw [Finset.sum_sigma']
  refine Finset.sum_bij' (fun β _ => ⟨fun c => β (.inr c), fun b => β (.inl b)⟩) (fun y _ => Sum.elim y.2 y.1) ?_ ?_ ?_ ?_ ?_
  · intro β hβ
    simp only [Fintype.mem_piFinset, Finset.mem_sigma] at hβ ⊢
    exact ⟨fun c => hβ _, fun b => hβ _⟩
  · intro y hy
    simp only [Fintype.mem_piFinset, Finset.mem_sigma] at hy ⊢
    rintro (b | c)
    · exact hy.2 b
    · exact hy.1 c
  · intro β _
    funext b
    rcases b with b | c <;> rfl
  · intro y _; rfl
  · intro β _; rfl

/-- row by row -/
theorem tvalue_rows (n : ℕ) (dim : TB n → ℕ) (t : ℕ → Tn 𝕜) :
    tvalue n dim t = ∑ v ∈ Fintype.piFinset (fun c : Fin n × Fin n => Finset.range (dim (.inr c))),
      ∏ r : Fin n, ∑ h ∈ Fintype.piFinset (fun c : Fin n => Finset.range (dim (.inl (r, c)))),
        ∏ c : Fin n, (t (r * n + c)).elem [h c, v (nx r, c), h (nx c), v (r, c)] := by
  unfold tvalue
  have := sum_sumtype dim fun (h v : Fin n × Fin n → ℕ) =>
    ∏ x : Fin n × Fin n, (t (x.1 * n + x.2)).elem [h x, v (nx x.1, x.2), h (x.1, nx x.2), v x]
  refine this.trans (Finset.sum_congr rfl fun v _ => ?_)
  rw [← sum_pairs (fun c => dim (.inl c)) fun (r : Fin n) h => ∏ c : Fin n,
    (t (r * n + c)).elem [h c, v (nx r, c), h (nx c), v (r, c)]]
  refine Finset.sum_congr rfl fun h _ => ?_
  rw [Fintype.prod_prod_type]

theorem sum_fin1 {R : Type*} [CommSemiring R] (d : Fin 1 → ℕ) (g : (Fin 1 → ℕ) → R) :
    ∑ x ∈ Fintype.piFinset (fun i => Finset.range (d i)), g x = ∑ a ∈ Finset.range (d 0), g ![a] := by
  refine Finset.sum_bij' (fun x _ => x 0) (fun y _ => ![y]) ?_ ?_ ?_ ?_ ?_
  · intro x hx
    simp only [Fintype.mem_piFinset] at hx
    exact hx 0
  · intro a hy
    simp only [Fintype.mem_piFinset]
    intro i
    fin_cases i
    exact hy
  · intro x _
    funext i
    fin_cases i; rfl
  · intro y _; rfl
  · intro x _
    congr 1
    funext i
    fin_cases i; rfl

theorem sum_fin2 {R : Type*} [CommSemiring R] (d : Fin 2 → ℕ) (g : (Fin 2 → ℕ) → R) :
    ∑ x ∈ Fintype.piFinset (fun i => Finset.range (d i)), g x =
      ∑ a ∈ Finset.range (d 0), ∑ b ∈ Finset.range (d 1), g ![a, b] := by
  simp only [Finset.sum_sigma']
  refine Finset.sum_bij' (fun x _ => ⟨x 0, x 1⟩) (fun y _ => ![y.1, y.2]) ?_ ?_ ?_ ?_ ?_
  · intro x hx
    simp only [Fintype.mem_piFinset, Finset.mem_sigma] at hx ⊢
    exact ⟨hx 0, hx 1⟩
  · rintro ⟨a, b⟩ hy
    simp only [Fintype.mem_piFinset, Finset.mem_sigma] at hy ⊢
    intro i
    fin_cases i
    · exact hy.1
    · exact hy.2
  · intro x _
    funext i
    fin_cases i <;> rfl
  · intro y _; rfl
  · intro x _
    congr 1
    funext i
    fin_cases i <;> rfl

theorem sum_fin3 {R : Type*} [CommSemiring R] (d : Fin 3 → ℕ) (g : (Fin 3 → ℕ) → R) :
    ∑ x ∈ Fintype.piFinset (fun i => Finset.range (d i)), g x =
      ∑ a ∈ Finset.range (d 0), ∑ b ∈ Finset.range (d 1), ∑ c ∈ Finset.range (d 2), g ![a, b, c] := by
  simp only [Finset.sum_sigma']
  refine Finset.sum_bij' (fun x _ => ⟨x 0, x 1, x 2⟩) (fun y _ => ![y.1, y.2.1, y.2.2]) ?_ ?_ ?_ ?_ ?_
  · intro x hx
    simp only [Fintype.mem_piFinset, Finset.mem_sigma] at hx ⊢
    exact ⟨hx 0, hx 1, hx 2⟩
  · rintro ⟨a, b, c⟩ hy
    simp only [Fintype.mem_piFinset, Finset.mem_sigma] at hy ⊢
    intro i
    fin_cases i
    · exact hy.1
    · exact hy.2.1
    · exact hy.2.2
  · intro x _
    funext i
    fin_cases i <;> rfl
  · intro y _; rfl
  · intro x _
    congr 1
    funext i
    fin_cases i <;> rfl

/-- vertical bonds of a torus by rows -/
theorem sum_rows {R : Type*} [CommSemiring R] {k : ℕ} (d : Fin k × Fin k → ℕ) (g : (Fin k → Fin k → ℕ) → R) :
    ∑ v ∈ Fintype.piFinset (fun c => Finset.range (d c)), g (fun r c => v (r, c)) =
      ∑ x ∈ Fintype.piFinset (fun r => Fintype.piFinset fun c => Finset.range (d (r, c))), g x := by
  refine Finset.sum_bij' (fun γ _ w i => γ (w, i)) (fun x _ c => x c.1 c.2) ?_ ?_ ?_ ?_ ?_
  · intro γ hγ
    simp only [Fintype.mem_piFinset] at hγ ⊢
    exact fun w i => hγ (w, i)
  · intro x hx
    simp only [Fintype.mem_piFinset] at hx ⊢
    exact fun c => hx c.1 c.2
  · intro γ _; rfl
  · intro x _; rfl
  · intro γ _; rfl

theorem sum_two {R α : Type*} [CommSemiring R] [DecidableEq α] (S : Fin 2 → Finset α) (g : (Fin 2 → α) → R) :
    ∑ x ∈ Fintype.piFinset S, g x = ∑ a ∈ S 0, ∑ b ∈ S 1, g ![a, b] := by
  simp only [Finset.sum_sigma']
  refine Finset.sum_bij' (fun x _ => ⟨x 0, x 1⟩) (fun y _ => ![y.1, y.2]) ?_ ?_ ?_ ?_ ?_
  · intro x hx
    simp only [Fintype.mem_piFinset, Finset.mem_sigma] at hx ⊢
    exact ⟨hx 0, hx 1⟩
  · rintro ⟨a, b⟩ hy
    simp only [Fintype.mem_piFinset, Finset.mem_sigma] at hy ⊢
    intro i
    fin_cases i
    · exact hy.1
    · exact hy.2
  · intro x _
    funext i
    fin_cases i <;> rfl
  · intro y _; rfl
  · intro x _
    congr 1
    funext i
    fin_cases i <;> rfl

theorem sum_three {R α : Type*} [CommSemiring R] [DecidableEq α] (S : Fin 3 → Finset α) (g : (Fin 3 → α) → R) :
    ∑ x ∈ Fintype.piFinset S, g x = ∑ a ∈ S 0, ∑ b ∈ S 1, ∑ c ∈ S 2, g ![a, b, c] := by
  simp only [Finset.sum_sigma']
  refine Finset.sum_bij' (fun x _ => ⟨x 0, x 1, x 2⟩) (fun y _ => ![y.1, y.2.1, y.2.2]) ?_ ?_ ?_ ?_ ?_
  · intro x hx
    simp only [Fintype.mem_piFinset, Finset.mem_sigma] at hx ⊢
    exact ⟨hx 0, hx 1, hx 2⟩
  · rintro ⟨a, b, c⟩ hy
    simp only [Fintype.mem_piFinset, Finset.mem_sigma] at hy ⊢
    intro i
    fin_cases i
    · exact hy.1
    · exact hy.2.1
    · exact hy.2.2
  · intro x _
    funext i
    fin_cases i <;> rfl
  · intro y _; rfl
  · intro x _
    congr 1
    funext i
    fin_cases i <;> rfl

/-- one row of the torus, with the vertical bonds below (`d`) and above (`u`) it -/
def rowSum (n : ℕ) (dim : TB n → ℕ) (t : ℕ → Tn 𝕜) (r : Fin n) (d u : Fin n → ℕ) : 𝕜 :=
  ∑ h ∈ Fintype.piFinset (fun c : Fin n => Finset.range (dim (.inl (r, c)))),
    ∏ c : Fin n, (t (r * n + c)).elem [h c, d c, h (nx c), u c]

theorem tvalue_rowSum (n : ℕ) (dim : TB n → ℕ) (t : ℕ → Tn 𝕜) :
    tvalue n dim t = ∑ v ∈ Fintype.piFinset (fun r : Fin n => Fintype.piFinset fun c : Fin n =>
      Finset.range (dim (.inr (r, c)))), ∏ r : Fin n, rowSum n dim t r (v (nx r)) (v r) := by
  rw [tvalue_rows, ← sum_rows (fun c => dim (.inr c))
    (fun v : Fin n → Fin n → ℕ => ∏ r : Fin n, rowSum n dim t r (v (nx r)) (v r))]
  rfl

theorem final1_value {t : ℕ → Tn 𝕜} {dim : TB 1 → ℕ} (hf : TFits 1 t dim) : final1 (t 0) = tvalue 1 dim t := by
  have h : (t 0).shape = [dim (.inl (0, 0)), dim (.inr (0, 0)), dim (.inl (0, 0)), dim (.inr (0, 0))] := hf (0, 0)
  rw [final1_elem h, tvalue_rows]
  refine Finset.sum_bij' (fun a _ _ => a) (fun v _ => v (0, 0)) ?_ ?_ ?_ ?_ ?_
  · intro a ha
    simp only [Fintype.mem_piFinset]
    rintro ⟨r, c⟩
    fin_cases r; fin_cases c
    exact ha
  · intro v hv
    exact (Fintype.mem_piFinset.1 hv) (0, 0)
  · intro a _; rfl
  · intro v _
    funext x
    obtain ⟨r, c⟩ := x
    fin_cases r; fin_cases c; rfl
  · intro a _
    rw [Fin.prod_univ_one, sum_fin1]
    refine Finset.sum_congr rfl fun x _ => ?_
    rw [Fin.prod_univ_one]
    rfl

theorem final2_value {t : ℕ → Tn 𝕜} {dim : TB 2 → ℕ} (hf : TFits 2 t dim) :
    final2 (t 0) (t 1) (t 2) (t 3) = tvalue 2 dim t := by
  have h0 : (t 0).shape = [dim (.inl (0, 0)), dim (.inr (1, 0)), dim (.inl (0, 1)), dim (.inr (0, 0))] := hf (0, 0)
  have h1 : (t 1).shape = [dim (.inl (0, 1)), dim (.inr (1, 1)), dim (.inl (0, 0)), dim (.inr (0, 1))] := hf (0, 1)
  have h2 : (t 2).shape = [dim (.inl (1, 0)), dim (.inr (0, 0)), dim (.inl (1, 1)), dim (.inr (1, 0))] := hf (1, 0)
  have h3 : (t 3).shape = [dim (.inl (1, 1)), dim (.inr (0, 1)), dim (.inl (1, 0)), dim (.inr (1, 1))] := hf (1, 1)
  have e0 : ∀ i k j l, rowSum 2 dim t 0 ![i, k] ![j, l] = ∑ x ∈ Finset.range (dim (.inl (0, 0))),
      ∑ y ∈ Finset.range (dim (.inl (0, 1))), (t 0).elem [x, i, y, j] * (t 1).elem [y, k, x, l] := by
    intro i k j l
    unfold rowSum
    rw [sum_fin2]
    refine Finset.sum_congr rfl fun x _ => Finset.sum_congr rfl fun y _ => ?_
    rw [Fin.prod_univ_two]; rfl
  have e1 : ∀ i k j l, rowSum 2 dim t 1 ![j, l] ![i, k] = ∑ x ∈ Finset.range (dim (.inl (1, 0))),
      ∑ y ∈ Finset.range (dim (.inl (1, 1))), (t 2).elem [x, j, y, i] * (t 3).elem [y, l, x, k] := by
    intro i k j l
    unfold rowSum
    rw [sum_fin2]
    refine Finset.sum_congr rfl fun x _ => Finset.sum_congr rfl fun y _ => ?_
    rw [Fin.prod_univ_two]; rfl
  rw [final2_elem h0 h1 h2 h3, tvalue_rowSum, sum_two, Finset.sum_comm, sum_fin2]
  refine Finset.sum_congr rfl fun j _ => ?_
  have q : ∀ l : ℕ, (∑ v ∈ Fintype.piFinset (fun c : Fin 2 => Finset.range (dim (.inr (1, c)))),
      ∏ r : Fin 2, rowSum 2 dim t r ((![![j, l], v] : Fin 2 → Fin 2 → ℕ) (nx r)) ((![![j, l], v] : Fin 2 → Fin 2 → ℕ) r)) =
      ∑ i ∈ Finset.range (dim (.inr (1, 0))), ∑ k ∈ Finset.range (dim (.inr (1, 1))),
        rowSum 2 dim t 0 ![i, k] ![j, l] * rowSum 2 dim t 1 ![j, l] ![i, k] := by
    intro l
    rw [sum_fin2]
    refine Finset.sum_congr rfl fun i _ => Finset.sum_congr rfl fun k _ => ?_
    rw [Fin.prod_univ_two]; rfl
  rw [Finset.sum_congr rfl fun l _ => q l, Finset.sum_comm (s := Finset.range (dim (.inr (0, 1))))]
  refine Finset.sum_congr rfl fun i _ => ?_
  rw [Finset.sum_comm]
  refine Finset.sum_congr rfl fun l _ => Finset.sum_congr rfl fun k _ => ?_
  rw [e0, e1]

set_option maxHeartbeats 2000000 in
theorem final3_value {t : ℕ → Tn 𝕜} {dim : TB 3 → ℕ} (hf : TFits 3 t dim) :
    final3 (t 0) (t 1) (t 2) (t 3) (t 4) (t 5) (t 6) (t 7) (t 8) = tvalue 3 dim t := by
  have h0 : (t 0).shape = [dim (.inl (0, 0)), dim (.inr (1, 0)), dim (.inl (0, 1)), dim (.inr (0, 0))] := hf (0, 0)
  have h1 : (t 1).shape = [dim (.inl (0, 1)), dim (.inr (1, 1)), dim (.inl (0, 2)), dim (.inr (0, 1))] := hf (0, 1)
  have h2 : (t 2).shape = [dim (.inl (0, 2)), dim (.inr (1, 2)), dim (.inl (0, 0)), dim (.inr (0, 2))] := hf (0, 2)
  have h3 : (t 3).shape = [dim (.inl (1, 0)), dim (.inr (2, 0)), dim (.inl (1, 1)), dim (.inr (1, 0))] := hf (1, 0)
  have h4 : (t 4).shape = [dim (.inl (1, 1)), dim (.inr (2, 1)), dim (.inl (1, 2)), dim (.inr (1, 1))] := hf (1, 1)
  have h5 : (t 5).shape = [dim (.inl (1, 2)), dim (.inr (2, 2)), dim (.inl (1, 0)), dim (.inr (1, 2))] := hf (1, 2)
  have h6 : (t 6).shape = [dim (.inl (2, 0)), dim (.inr (0, 0)), dim (.inl (2, 1)), dim (.inr (2, 0))] := hf (2, 0)
  have h7 : (t 7).shape = [dim (.inl (2, 1)), dim (.inr (0, 1)), dim (.inl (2, 2)), dim (.inr (2, 1))] := hf (2, 1)
  have h8 : (t 8).shape = [dim (.inl (2, 2)), dim (.inr (0, 2)), dim (.inl (2, 0)), dim (.inr (2, 2))] := hf (2, 2)
  have row : ∀ (r : Fin 3) (t0 t1 t2 : Tn 𝕜), t (r * 3 + (0 : Fin 3)) = t0 → t (r * 3 + (1 : Fin 3)) = t1 →
      t (r * 3 + (2 : Fin 3)) = t2 → ∀ i j k l m n, rowSum 3 dim t r ![i, k, m] ![j, l, n] =
      ∑ a ∈ Finset.range (dim (.inl (r, 0))), ∑ c ∈ Finset.range (dim (.inl (r, 2))),
        (∑ b ∈ Finset.range (dim (.inl (r, 1))), t0.elem [a, i, b, j] * t1.elem [b, k, c, l]) *
          t2.elem [c, m, a, n] := by
    rintro r t0 t1 t2 rfl rfl rfl i j k l m n
    unfold rowSum
    rw [sum_fin3]
    refine Finset.sum_congr rfl fun a _ => ?_
    rw [Finset.sum_comm]
    refine Finset.sum_congr rfl fun c _ => ?_
    rw [Finset.sum_mul]
    refine Finset.sum_congr rfl fun b _ => ?_
    rw [Fin.prod_univ_three]; rfl
  obtain ⟨s0, g0⟩ := rowRing_elem h0 h1 h2
  obtain ⟨s1, g1⟩ := rowRing_elem h3 h4 h5
  obtain ⟨s2, g2⟩ := rowRing_elem h6 h7 h8
  unfold final3
  refine (rows_elem s0 s1 s2).trans ?_
  rw [tvalue_rowSum, sum_three]
  have q : ∀ u : Fin 3 → ℕ, (∑ x ∈ Fintype.piFinset (fun c : Fin 3 => Finset.range (dim (.inr (1, c)))),
      ∑ v ∈ Fintype.piFinset (fun c : Fin 3 => Finset.range (dim (.inr (2, c)))),
      ∏ r : Fin 3, rowSum 3 dim t r ((![u, x, v] : Fin 3 → Fin 3 → ℕ) (nx r)) ((![u, x, v] : Fin 3 → Fin 3 → ℕ) r)) =
      ∑ v ∈ Fintype.piFinset (fun c : Fin 3 => Finset.range (dim (.inr (2, c)))),
        (∑ x ∈ Fintype.piFinset (fun c : Fin 3 => Finset.range (dim (.inr (1, c)))),
          rowSum 3 dim t 0 x u * rowSum 3 dim t 1 v x) * rowSum 3 dim t 2 u v := by
    intro u
    rw [Finset.sum_comm]
    refine Finset.sum_congr rfl fun v _ => ?_
    rw [Finset.sum_mul]
    refine Finset.sum_congr rfl fun x _ => ?_
    rw [Fin.prod_univ_three]; rfl
  refine Eq.symm ((Finset.sum_congr rfl fun u _ => q u).trans ?_)
  rw [sum_fin3]
  refine Finset.sum_congr rfl fun u0 _ => Finset.sum_congr rfl fun u1 _ => Finset.sum_congr rfl fun u2 _ => ?_
  rw [sum_fin3]
  refine Finset.sum_congr rfl fun v0 _ => Finset.sum_congr rfl fun v1 _ => Finset.sum_congr rfl fun v2 _ => ?_
  rw [sum_fin3, g2, row 2 (t 6) (t 7) (t 8) rfl rfl rfl]
  congr 1
  refine Finset.sum_congr rfl fun x0 _ => Finset.sum_congr rfl fun x1 _ => Finset.sum_congr rfl fun x2 _ => ?_
  rw [g0, g1, row 0 (t 0) (t 1) (t 2) rfl rfl rfl, row 1 (t 3) (t 4) (t 5) rfl rfl rfl]

end

end QLPeps.Trg
