import Verif.Lemmas.TrgHoleThree
import Verif.Spec.TrgHoles

/-!
# The holes of the last scale are derivatives
-/

namespace QLPeps.Trg

open QLPeps.Peps (Tn Diag Lib Svd contractN transpose dag diagInv)
open Spec (pair)

noncomputable section

variable {𝕜 : Type} [RCLike 𝕜]

theorem pair_eq {a b c d : ℕ} (h : Tn 𝕜) {t : Tn 𝕜} (ht : t.shape = [a, b, c, d]) : pair h t = P4 a b c d h t := by
  unfold pair P4
  rw [ht]
  rfl

theorem TFits.update {n : ℕ} {t : ℕ → Tn 𝕜} {dim : TB n → ℕ} (hf : TFits n t dim) (v : Fin n × Fin n) {X : Tn 𝕜}
    (hX : X.shape = (t (nid v)).shape) : TFits n (Function.update t (nid v) X) dim := by
  intro u
  by_cases h : (u.1 : ℕ) * n + u.2 = nid v
  · rw [← hf u, h, Function.update_self, hX]
  · rw [← hf u, Function.update_of_ne h]

theorem last2 {t : ℕ → Tn 𝕜} {dim : TB 2 → ℕ} (hf : TFits 2 t dim) (v : Fin 2 × Fin 2) {X : Tn 𝕜}
    (hX : X.shape = (t (nid v)).shape) :
    (holes2 t (nid v)).shape = (t (nid v)).shape ∧
      pair (holes2 t (nid v)) X = tvalue 2 dim (Function.update t (nid v) X) := by
  have h0 : (t 0).shape = [dim (.inl (0, 0)), dim (.inr (1, 0)), dim (.inl (0, 1)), dim (.inr (0, 0))] := hf (0, 0)
  have h1 : (t 1).shape = [dim (.inl (0, 1)), dim (.inr (1, 1)), dim (.inl (0, 0)), dim (.inr (0, 1))] := hf (0, 1)
  have h2 : (t 2).shape = [dim (.inl (1, 0)), dim (.inr (0, 0)), dim (.inl (1, 1)), dim (.inr (1, 0))] := hf (1, 0)
  have h3 : (t 3).shape = [dim (.inl (1, 1)), dim (.inr (0, 1)), dim (.inl (1, 0)), dim (.inr (1, 1))] := hf (1, 1)
  rw [← final2_value (hf.update v hX)]
  have hv : v = (0, 0) ∨ v = (0, 1) ∨ v = (1, 0) ∨ v = (1, 1) := by
    clear hX; revert v; decide
  rcases hv with rfl | rfl | rfl | rfl
  · have hX : X.shape = (t 0).shape := hX
    have e := holes2_pair0 h1 h2 h3 (hX.trans h0)
    change (holes2 t 0).shape = (t 0).shape ∧ pair (holes2 t 0) X = final2 (Function.update t 0 X 0)
      (Function.update t 0 X 1) (Function.update t 0 X 2) (Function.update t 0 X 3)
    rw [Function.update_self, Function.update_of_ne (by decide), Function.update_of_ne (by decide),
      Function.update_of_ne (by decide), pair_eq _ (hX.trans h0), h0]
    exact ⟨(holes2_elem0 h1 h2 h3).1, e⟩
  · have hX : X.shape = (t 1).shape := hX
    have e := holes2_pair1 h0 h2 h3 (hX.trans h1)
    change (holes2 t 1).shape = (t 1).shape ∧ pair (holes2 t 1) X = final2 (Function.update t 1 X 0)
      (Function.update t 1 X 1) (Function.update t 1 X 2) (Function.update t 1 X 3)
    rw [Function.update_self, Function.update_of_ne (by decide), Function.update_of_ne (by decide),
      Function.update_of_ne (by decide), pair_eq _ (hX.trans h1), h1]
    exact ⟨(holes2_elem1 h0 h2 h3).1, e⟩
  · have hX : X.shape = (t 2).shape := hX
    have e := holes2_pair2 h0 h1 h3 (hX.trans h2)
    change (holes2 t 2).shape = (t 2).shape ∧ pair (holes2 t 2) X = final2 (Function.update t 2 X 0)
      (Function.update t 2 X 1) (Function.update t 2 X 2) (Function.update t 2 X 3)
    rw [Function.update_self, Function.update_of_ne (by decide), Function.update_of_ne (by decide),
      Function.update_of_ne (by decide), pair_eq _ (hX.trans h2), h2]
    exact ⟨(holes2_elem2 h0 h1 h3).1, e⟩
  · have hX : X.shape = (t 3).shape := hX
    have e := holes2_pair3 h0 h1 h2 (hX.trans h3)
    change (holes2 t 3).shape = (t 3).shape ∧ pair (holes2 t 3) X = final2 (Function.update t 3 X 0)
      (Function.update t 3 X 1) (Function.update t 3 X 2) (Function.update t 3 X 3)
    rw [Function.update_self, Function.update_of_ne (by decide), Function.update_of_ne (by decide),
      Function.update_of_ne (by decide), pair_eq _ (hX.trans h3), h3]
    exact ⟨(holes2_elem3 h0 h1 h2).1, e⟩

theorem rel_sh : ∀ v u : Fin 3 × Fin 3, relId (nid v) (nid u / 3) (nid u % 3) = nid (shN (v.1 : ℕ) v.2 u) := by decide

theorem rel_ne : ∀ v : Fin 3 × Fin 3, ∀ k ∈ [1, 2, 3, 4, 5, 6, 7, 8], relId (nid v) (k / 3) (k % 3) ≠ nid v := by decide

theorem rel_zero : ∀ v : Fin 3 × Fin 3, relId (nid v) 0 0 = nid v := by decide

theorem last3 {t : ℕ → Tn 𝕜} {dim : TB 3 → ℕ} (hf : TFits 3 t dim) (v : Fin 3 × Fin 3) {X : Tn 𝕜}
    (hX : X.shape = (t (nid v)).shape) :
    (holes3 t (nid v)).shape = (t (nid v)).shape ∧
      pair (holes3 t (nid v)) X = tvalue 3 dim (Function.update t (nid v) X) := by
  obtain ⟨t', ht'⟩ : ∃ t' : ℕ → Tn 𝕜, ∀ k, t' k = Function.update t (nid v) X (relId (nid v) (k / 3) (k % 3)) := ⟨_, fun _ => rfl⟩
  have hs : ∀ u : Fin 3 × Fin 3, t' (nid u) = Function.update t (nid v) X (nid (shN (v.1 : ℕ) v.2 u)) := fun u => by
    rw [ht', rel_sh]
  rw [tvalue_shift (v.1 : ℕ) v.2 dim hs]
  have hF := hf.update v hX
  have hf' : TFits 3 t' (fun x => dim (shB (v.1 : ℕ) v.2 x)) := fun u => by
    have := hF (shN (v.1 : ℕ) v.2 u)
    rw [lS_sh, lE_sh] at this
    have e := hs u
    unfold nid at e
    rw [e]
    exact this
  generalize hd : (fun x => dim (shB (v.1 : ℕ) v.2 x)) = d' at hf' ⊢
  rw [← final3_value hf']
  have h0 : (t' 0).shape = [d' (.inl (0, 0)), d' (.inr (1, 0)), d' (.inl (0, 1)), d' (.inr (0, 0))] := hf' (0, 0)
  have h1 : (t' 1).shape = [d' (.inl (0, 1)), d' (.inr (1, 1)), d' (.inl (0, 2)), d' (.inr (0, 1))] := hf' (0, 1)
  have h2 : (t' 2).shape = [d' (.inl (0, 2)), d' (.inr (1, 2)), d' (.inl (0, 0)), d' (.inr (0, 2))] := hf' (0, 2)
  have h3 : (t' 3).shape = [d' (.inl (1, 0)), d' (.inr (2, 0)), d' (.inl (1, 1)), d' (.inr (1, 0))] := hf' (1, 0)
  have h4 : (t' 4).shape = [d' (.inl (1, 1)), d' (.inr (2, 1)), d' (.inl (1, 2)), d' (.inr (1, 1))] := hf' (1, 1)
  have h5 : (t' 5).shape = [d' (.inl (1, 2)), d' (.inr (2, 2)), d' (.inl (1, 0)), d' (.inr (1, 2))] := hf' (1, 2)
  have h6 : (t' 6).shape = [d' (.inl (2, 0)), d' (.inr (0, 0)), d' (.inl (2, 1)), d' (.inr (2, 0))] := hf' (2, 0)
  have h7 : (t' 7).shape = [d' (.inl (2, 1)), d' (.inr (0, 1)), d' (.inl (2, 2)), d' (.inr (2, 1))] := hf' (2, 1)
  have h8 : (t' 8).shape = [d' (.inl (2, 2)), d' (.inr (0, 2)), d' (.inl (2, 0)), d' (.inr (2, 2))] := hf' (2, 2)
  have hk : ∀ k ∈ [1, 2, 3, 4, 5, 6, 7, 8], t (relId (nid v) (k / 3) (k % 3)) = t' k := fun k hk => by
    rw [ht', Function.update_of_ne (rel_ne v k hk)]
  have e0 : t' 0 = X := by
    rw [ht', Nat.zero_div, Nat.zero_mod, rel_zero, Function.update_self]
  have eh : holes3 t (nid v) = hole3 (t' 1) (t' 2) (t' 3) (t' 4) (t' 5) (t' 6) (t' 7) (t' 8) := by
    rw [← hk 1 (by decide), ← hk 2 (by decide), ← hk 3 (by decide), ← hk 4 (by decide), ← hk 5 (by decide),
      ← hk 6 (by decide), ← hk 7 (by decide), ← hk 8 (by decide)]
    rfl
  rw [eh, e0, ← hX]
  rw [e0] at h0
  obtain ⟨a, b⟩ := hole3_pair h0 h1 h2 h3 h4 h5 h6 h7 h8
  rw [pair_eq _ h0, h0]
  exact ⟨a, b⟩

end

end QLPeps.Trg
