import Verif.Lemmas.TrgElem
import Verif.Lemmas.TrgSum
import Verif.Lemmas.TrgTopo

/-!
# One step of the TRG contraction keeps the value of the network
-/

namespace QLPeps.Trg

open QLPeps.Peps (Tn Diag Lib)
open QLPeps.Peps.Spec (Exact SvdNonNeg)

noncomputable section

variable {𝕜 : Type} [RCLike 𝕜]

/-! ### The torus -/

/-- bonds of the `n × n` torus: west of a site, north of a site -/
abbrev TB (n : ℕ) := (Fin n × Fin n) ⊕ (Fin n × Fin n)

def nx {n : ℕ} (a : Fin n) : Fin n := ⟨(a + 1) % n, Nat.mod_lt _ a.pos⟩

theorem nx_val {n : ℕ} (a : Fin n) : ((nx a : Fin n) : ℕ) = if (a : ℕ) + 1 = n then 0 else (a : ℕ) + 1 := by
  have := a.2
  unfold nx
  dsimp only
  split
  · rename_i h; rw [h, Nat.mod_self]
  · rw [Nat.mod_eq_of_lt (by omega)]

def lW {n : ℕ} (v : Fin n × Fin n) : TB n := .inl v
def lS {n : ℕ} (v : Fin n × Fin n) : TB n := .inr (nx v.1, v.2)
def lE {n : ℕ} (v : Fin n × Fin n) : TB n := .inl (v.1, nx v.2)
def lN {n : ℕ} (v : Fin n × Fin n) : TB n := .inr v

/-- the tensors (by number) fit together on the torus -/
def TFits (n : ℕ) (t : ℕ → Tn 𝕜) (dim : TB n → ℕ) : Prop :=
  ∀ v : Fin n × Fin n, (t (v.1 * n + v.2)).shape = [dim (lW v), dim (lS v), dim (lE v), dim (lN v)]

/-- the value of the network on the torus -/
def tvalue (n : ℕ) (dim : TB n → ℕ) (t : ℕ → Tn 𝕜) : 𝕜 :=
  ∑ β ∈ Fintype.piFinset fun b => Finset.range (dim b),
    ∏ v : Fin n × Fin n, (t (v.1 * n + v.2)).elem [β (lW v), β (lS v), β (lE v), β (lN v)]

/-! ### The rotated lattice: nodes `(r, c)` with even `r + c`, numbered `(r, c / 2)`; bonds are the old nodes -/

def cTL {m : ℕ} (w : Fin (2 * m) × Fin m) : Fin (2 * m) × Fin (2 * m) :=
  (w.1, ⟨2 * w.2 + w.1 % 2, by have := w.2.2; omega⟩)
def cTR {m : ℕ} (w : Fin (2 * m) × Fin m) : Fin (2 * m) × Fin (2 * m) := ((cTL w).1, nx (cTL w).2)
def cBR {m : ℕ} (w : Fin (2 * m) × Fin m) : Fin (2 * m) × Fin (2 * m) := (nx (cTL w).1, nx (cTL w).2)
def cBL {m : ℕ} (w : Fin (2 * m) × Fin m) : Fin (2 * m) × Fin (2 * m) := (nx (cTL w).1, (cTL w).2)

def RFits (m : ℕ) (t : ℕ → Tn 𝕜) (dim : Fin (2 * m) × Fin (2 * m) → ℕ) : Prop :=
  ∀ w : Fin (2 * m) × Fin m, (t (w.1 * m + w.2)).shape = [dim (cTL w), dim (cTR w), dim (cBR w), dim (cBL w)]

def rvalue (m : ℕ) (dim : Fin (2 * m) × Fin (2 * m) → ℕ) (t : ℕ → Tn 𝕜) : 𝕜 :=
  ∑ α ∈ Fintype.piFinset fun v => Finset.range (dim v),
    ∏ w : Fin (2 * m) × Fin m, (t (w.1 * m + w.2)).elem [α (cTL w), α (cTR w), α (cBR w), α (cBL w)]

/-! ### Plaquettes -/

/-- split type of a node of the square lattice -/
def nodeTy {n : ℕ} (v : Fin n × Fin n) : Bool := ((v.1 : ℕ) + v.2) % 2 != 0

/-- number of a node -/
def nid {n : ℕ} (v : Fin n × Fin n) : ℕ := v.1 * n + v.2

def plaqT (lib : Lib 𝕜) (m : ℕ) (t : ℕ → Tn 𝕜) (w : Fin (2 * m) × Fin m) : Tn 𝕜 :=
  plaqCore (splitPieces lib false (t (nid (cTL w)))).2 (splitPieces lib true (t (nid (cTR w)))).2
    (splitPieces lib true (t (nid (cBL w)))).1 (splitPieces lib false (t (nid (cBR w)))).1

def pe {m : ℕ} (x : (Fin (2 * m) × Fin m) × Fin 4) : TB (2 * m) :=
  match x.2 with
  | 0 => lS (cTL x.1)
  | 1 => lS (cTR x.1)
  | 2 => lE (cBL x.1)
  | 3 => lE (cTL x.1)

def pp {m : ℕ} (x : (Fin (2 * m) × Fin m) × Fin 2) : Fin (2 * m) × Fin (2 * m) :=
  match x.2 with
  | 0 => cBL x.1
  | 1 => cBR x.1

def pq {m : ℕ} (x : (Fin (2 * m) × Fin m) × Fin 2) : Fin (2 * m) × Fin (2 * m) :=
  match x.2 with
  | 0 => cTR x.1
  | 1 => cTL x.1

theorem pe_bij {m : ℕ} : Function.Bijective (pe (m := m)) := by
  rw [Fintype.bijective_iff_injective_and_card]
  constructor
  · rintro ⟨⟨r, k⟩, i⟩ ⟨⟨r', k'⟩, j⟩ h
    have hr := r.2
    have hr' := r'.2
    have hk := k.2
    have hk' := k'.2
    fin_cases i <;> fin_cases j <;>
      simp only [pe, lS, lE, cTL, cTR, cBL, Sum.inl.injEq, Sum.inr.injEq, Prod.mk.injEq, Fin.ext_iff, nx_val,
        reduceCtorEq, Fin.zero_eta, Fin.mk_one, Fin.reduceFinMk, and_true] at h ⊢ <;> (try split_ifs at h) <;> first | omega | (exfalso; omega) | exact h.1.elim | exact h.2.elim | exact h.elim | (have := h.2; first | omega | (exfalso; omega))
  · simp only [Fintype.card_prod, Fintype.card_sum, Fintype.card_fin]
    ring

theorem pp_bij {m : ℕ} : Function.Bijective (pp (m := m)) := by
  rw [Fintype.bijective_iff_injective_and_card]
  constructor
  · rintro ⟨⟨r, k⟩, i⟩ ⟨⟨r', k'⟩, j⟩ h
    have hr := r.2
    have hr' := r'.2
    have hk := k.2
    have hk' := k'.2
    fin_cases i <;> fin_cases j <;>
      simp only [pp, cTL, cBR, cBL, Prod.mk.injEq, Fin.ext_iff, nx_val, Fin.zero_eta, Fin.mk_one, and_true] at h ⊢ <;>
      (try split_ifs at h) <;> first | omega | (exfalso; omega) | exact h.1.elim | exact h.2.elim | exact h.elim | (have := h.2; first | omega | (exfalso; omega))
  · simp only [Fintype.card_prod, Fintype.card_fin]
    ring

theorem pq_bij {m : ℕ} : Function.Bijective (pq (m := m)) := by
  rw [Fintype.bijective_iff_injective_and_card]
  constructor
  · rintro ⟨⟨r, k⟩, i⟩ ⟨⟨r', k'⟩, j⟩ h
    have hr := r.2
    have hr' := r'.2
    have hk := k.2
    have hk' := k'.2
    fin_cases i <;> fin_cases j <;>
      simp only [pq, cTL, cTR, Prod.mk.injEq, Fin.ext_iff, nx_val, Fin.zero_eta, Fin.mk_one, and_true] at h ⊢ <;>
      (try split_ifs at h) <;> first | omega | (exfalso; omega) | exact h.1.elim | exact h.2.elim | exact h.elim | (have := h.2; first | omega | (exfalso; omega))
  · simp only [Fintype.card_prod, Fintype.card_fin]
    ring

theorem ty_TL {m : ℕ} (w : Fin (2 * m) × Fin m) : nodeTy (cTL w) = false := by
  simp only [nodeTy, cTL, bne_eq_false_iff_eq]; omega
theorem ty_TR {m : ℕ} (w : Fin (2 * m) × Fin m) : nodeTy (cTR w) = true := by
  have := w.1.2
  have := w.2.2
  simp only [nodeTy, cTR, cTL, bne_iff_ne, nx_val]; split <;> omega
theorem ty_BL {m : ℕ} (w : Fin (2 * m) × Fin m) : nodeTy (cBL w) = true := by
  have := w.1.2
  have := w.2.2
  simp only [nodeTy, cBL, cTL, bne_iff_ne, nx_val]; split <;> omega
theorem ty_BR {m : ℕ} (w : Fin (2 * m) × Fin m) : nodeTy (cBR w) = false := by
  have := w.1.2
  have := w.2.2
  simp only [nodeTy, cBR, cTL, bne_eq_false_iff_eq, nx_val]; split <;> split <;> omega

/-- the bonds of the rotated lattice -/
def plaqDim (lib : Lib 𝕜) {m : ℕ} (t : ℕ → Tn 𝕜) (v : Fin (2 * m) × Fin (2 * m)) : ℕ :=
  newDim lib (nodeTy v) (t (nid v))

theorem plaq_shapes {lib : Lib 𝕜} (he : Exact lib) {m : ℕ} {t : ℕ → Tn 𝕜} {dim : TB (2 * m) → ℕ}
    (hf : TFits (2 * m) t dim) (w : Fin (2 * m) × Fin m) :
    (plaqT lib m t w).shape = [plaqDim lib t (cTL w), plaqDim lib t (cTR w), plaqDim lib t (cBR w),
      plaqDim lib t (cBL w)] ∧
    ∀ a b c d, (plaqT lib m t w).elem [a, b, c, d] =
      ∑ i ∈ Finset.range (dim (pe (w, 0))), ∑ j ∈ Finset.range (dim (pe (w, 1))),
      ∑ k ∈ Finset.range (dim (pe (w, 2))), ∑ l ∈ Finset.range (dim (pe (w, 3))),
        (splitPieces lib true (t (nid (cBL w)))).1.elem [d, k, i] *
          (splitPieces lib false (t (nid (cBR w)))).1.elem [k, j, c] *
        ((splitPieces lib true (t (nid (cTR w)))).2.elem [l, j, b] *
          (splitPieces lib false (t (nid (cTL w)))).2.elem [a, i, l]) := by
  have h0 := (split0 he (hf (cTL w))).2
  have h1 := (split1 he (hf (cTR w))).1
  have h2 := (split1 he (hf (cBL w))).2
  have h3 := (split0 he (hf (cBR w))).1
  have := plaq_elem h0 h1 h2 h3
  unfold plaqDim
  rw [ty_TL, ty_TR, ty_BL, ty_BR]
  exact this

/-- **Plaquettes.** -/
theorem plaq_step {lib : Lib 𝕜} (he : Exact lib) (hn : SvdNonNeg lib) {m : ℕ} {t : ℕ → Tn 𝕜} {dim : TB (2 * m) → ℕ}
    (hf : TFits (2 * m) t dim)
    (h0 : ∀ v : Fin (2 * m) × Fin (2 * m), (factors lib (nodeTy v) (t (nid v))).err = 0) {t' : ℕ → Tn 𝕜}
    (ht' : ∀ w : Fin (2 * m) × Fin m, t' (w.1 * m + w.2) = plaqT lib m t w) :
    RFits m t' (plaqDim lib t) ∧ tvalue (2 * m) dim t = rvalue m (plaqDim lib t) t' := by
  refine ⟨fun w => by rw [ht']; exact (plaq_shapes he hf w).1, ?_⟩
  refine regroup dim (plaqDim lib t)
    (fun v β => (t (v.1 * (2 * m) + v.2)).elem [β (lW v), β (lS v), β (lE v), β (lN v)])
    (fun v β a => if nodeTy v then (splitPieces lib true (t (nid v))).1.elem [a, β (lE v), β (lN v)]
      else (splitPieces lib false (t (nid v))).1.elem [β (lW v), β (lN v), a])
    (fun v β a => if nodeTy v then (splitPieces lib true (t (nid v))).2.elem [β (lW v), β (lS v), a]
      else (splitPieces lib false (t (nid v))).2.elem [a, β (lS v), β (lE v)])
    ?_ pe pe_bij pp pq pp_bij pq_bij _
    (fun w α x => (splitPieces lib true (t (nid (cBL w)))).1.elem [α (cBL w), x 2, x 0] *
          (splitPieces lib false (t (nid (cBR w)))).1.elem [x 2, x 1, α (cBR w)] *
        ((splitPieces lib true (t (nid (cTR w)))).2.elem [x 3, x 1, α (cTR w)] *
          (splitPieces lib false (t (nid (cTL w)))).2.elem [α (cTL w), x 0, x 3])) ?_ ?_
  · intro β hβ v
    rw [Fintype.mem_piFinset] at hβ
    have hb := fun b => Finset.mem_range.1 (hβ b)
    cases hv : nodeTy v
    · simp only [Bool.false_eq_true, if_false]
      have := h0 v
      rw [hv] at this
      unfold plaqDim
      rw [hv]
      exact split0_sum he hn (hf v) this (hb _) (hb _) (hb _) (hb _)
    · simp only [if_true]
      have := h0 v
      rw [hv] at this
      unfold plaqDim
      rw [hv]
      exact split1_sum he hn (hf v) this (hb _) (hb _) (hb _) (hb _)
  · intro w α β
    dsimp only [pp, pq, pe]
    simp only [ty_TL, ty_TR, ty_BL, ty_BR, if_true, Bool.false_eq_true, if_false]
    rfl
  · intro w α _
    rw [ht', (plaq_shapes he hf w).2]
    rfl

/-! ### Diamonds -/

/-- split type of a node of the rotated lattice -/
def rotTy {m : ℕ} (w : Fin (2 * m) × Fin m) : Bool := (w.1 : ℕ) % 2 != 0

def rid {m : ℕ} (w : Fin (2 * m) × Fin m) : ℕ := w.1 * m + w.2

def dN {m : ℕ} (x : Fin m × Fin m) : Fin (2 * m) × Fin m :=
  (⟨if (x.1 : ℕ) = 0 then 2 * m - 1 else 2 * x.1 - 1, by have := x.1.2; split <;> omega⟩, x.2)
def dE {m : ℕ} (x : Fin m × Fin m) : Fin (2 * m) × Fin m := (⟨2 * x.1, by have := x.1.2; omega⟩, nx x.2)
def dS {m : ℕ} (x : Fin m × Fin m) : Fin (2 * m) × Fin m := (⟨2 * x.1 + 1, by have := x.1.2; omega⟩, x.2)
def dW {m : ℕ} (x : Fin m × Fin m) : Fin (2 * m) × Fin m := (⟨2 * x.1, by have := x.1.2; omega⟩, x.2)

def diamT (lib : Lib 𝕜) (m : ℕ) (t : ℕ → Tn 𝕜) (x : Fin m × Fin m) : Tn 𝕜 :=
  diamCore (splitPieces lib true (t (rid (dN x)))).1 (splitPieces lib false (t (rid (dE x)))).1
    (splitPieces lib true (t (rid (dS x)))).2 (splitPieces lib false (t (rid (dW x)))).2

def de {m : ℕ} (x : (Fin m × Fin m) × Fin 4) : Fin (2 * m) × Fin (2 * m) :=
  match x.2 with
  | 0 => cTR (dS x.1)
  | 1 => cTR (dW x.1)
  | 2 => cTL (dS x.1)
  | 3 => cTL (dE x.1)

def dp {m : ℕ} (x : (Fin m × Fin m) × Fin 2) : Fin (2 * m) × Fin m :=
  match x.2 with
  | 0 => dN x.1
  | 1 => dE x.1

def dq {m : ℕ} (x : (Fin m × Fin m) × Fin 2) : Fin (2 * m) × Fin m :=
  match x.2 with
  | 0 => dS x.1
  | 1 => dW x.1

theorem de_bij {m : ℕ} : Function.Bijective (de (m := m)) := by
  rw [Fintype.bijective_iff_injective_and_card]
  constructor
  · rintro ⟨⟨r, k⟩, i⟩ ⟨⟨r', k'⟩, j⟩ h
    have hr := r.2
    have hr' := r'.2
    have hk := k.2
    have hk' := k'.2
    fin_cases i <;> fin_cases j <;>
      simp only [de, cTL, cTR, dS, dW, dE, Prod.mk.injEq, Fin.ext_iff, nx_val, Fin.zero_eta, Fin.mk_one,
        Fin.reduceFinMk, and_true] at h ⊢ <;> (try split_ifs at h) <;> first | omega | (exfalso; omega) | exact h.1.elim | exact h.2.elim | exact h.elim | (have := h.2; first | omega | (exfalso; omega))
  · simp only [Fintype.card_prod, Fintype.card_fin]
    ring

theorem dp_bij {m : ℕ} : Function.Bijective (dp (m := m)) := by
  rw [Fintype.bijective_iff_injective_and_card]
  constructor
  · rintro ⟨⟨r, k⟩, i⟩ ⟨⟨r', k'⟩, j⟩ h
    have hr := r.2
    have hr' := r'.2
    have hk := k.2
    have hk' := k'.2
    fin_cases i <;> fin_cases j <;>
      simp only [dp, dN, dE, Prod.mk.injEq, Fin.ext_iff, nx_val, Fin.zero_eta, Fin.mk_one, and_true] at h ⊢ <;>
      (try split_ifs at h) <;> first | omega | (exfalso; omega) | exact h.1.elim | exact h.2.elim | exact h.elim | (have := h.2; first | omega | (exfalso; omega))
  · simp only [Fintype.card_prod, Fintype.card_fin]
    ring

theorem dq_bij {m : ℕ} : Function.Bijective (dq (m := m)) := by
  rw [Fintype.bijective_iff_injective_and_card]
  constructor
  · rintro ⟨⟨r, k⟩, i⟩ ⟨⟨r', k'⟩, j⟩ h
    have hr := r.2
    have hr' := r'.2
    have hk := k.2
    have hk' := k'.2
    fin_cases i <;> fin_cases j <;>
      simp only [dq, dS, dW, Prod.mk.injEq, Fin.ext_iff, Fin.zero_eta, Fin.mk_one, and_true] at h ⊢ <;> first | omega | (exfalso; omega) | exact h.1.elim | exact h.2.elim | exact h.elim | (have := h.2; first | omega | (exfalso; omega))
  · simp only [Fintype.card_prod, Fintype.card_fin]
    ring

theorem ty_N {m : ℕ} (x : Fin m × Fin m) : rotTy (dN x) = true := by
  have := x.1.2
  simp only [rotTy, dN, bne_iff_ne]; split <;> omega
theorem ty_E {m : ℕ} (x : Fin m × Fin m) : rotTy (dE x) = false := by simp [rotTy, dE]
theorem ty_S {m : ℕ} (x : Fin m × Fin m) : rotTy (dS x) = true := by simp [rotTy, dS]
theorem ty_W {m : ℕ} (x : Fin m × Fin m) : rotTy (dW x) = false := by simp [rotTy, dW]

/-- which node of the rotated lattice a bond of the new torus comes from -/
def bondNode {m : ℕ} : TB m → Fin (2 * m) × Fin m
  | .inl x => dW x
  | .inr x => dN x

theorem bondNode_bij {m : ℕ} : Function.Bijective (bondNode (m := m)) := by
  rw [Fintype.bijective_iff_injective_and_card]
  constructor
  · rintro (⟨r, k⟩ | ⟨r, k⟩) (⟨r', k'⟩ | ⟨r', k'⟩) h <;>
    · have hr := r.2
      have hr' := r'.2
      simp only [bondNode, dW, dN, Prod.mk.injEq, Fin.ext_iff, Sum.inl.injEq, Sum.inr.injEq, reduceCtorEq] at h ⊢
      try split_ifs at h
      all_goals first | omega | (exfalso; omega) | exact h.1.elim | exact h.2.elim | exact h.elim | (have := h.2; first | omega | (exfalso; omega))
  · simp only [Fintype.card_prod, Fintype.card_sum, Fintype.card_fin]
    ring

theorem bondNode_W {m : ℕ} (x : Fin m × Fin m) : bondNode (lW x) = dW x := rfl
theorem bondNode_N {m : ℕ} (x : Fin m × Fin m) : bondNode (lN x) = dN x := rfl
theorem bondNode_E {m : ℕ} (x : Fin m × Fin m) : bondNode (lE x) = dE x := rfl
theorem bondNode_S {m : ℕ} (x : Fin m × Fin m) : bondNode (lS x) = dS x := by
  have := x.1.2
  simp only [bondNode, lS, dN, dS, Prod.mk.injEq, Fin.ext_iff, nx_val, and_true]
  by_cases h : (x.1 : ℕ) + 1 = m
  · rw [if_pos h, if_pos rfl]; omega
  · rw [if_neg h, if_neg (by omega)]; omega

/-- the bonds of the new torus -/
def diamDim (lib : Lib 𝕜) {m : ℕ} (t : ℕ → Tn 𝕜) (w : Fin (2 * m) × Fin m) : ℕ :=
  newDim lib (rotTy w) (t (rid w))

theorem corner1 {m : ℕ} (x : Fin m × Fin m) : cBR (dN x) = cTL (dE x) := by
  have := x.1.2
  have := x.2.2
  simp only [cBR, cTL, dN, dE, Prod.mk.injEq, Fin.ext_iff, nx_val]
  split_ifs <;> omega
theorem corner2 {m : ℕ} (x : Fin m × Fin m) : cBL (dN x) = cTR (dW x) := by
  have := x.1.2
  have := x.2.2
  simp only [cBL, cTR, cTL, dN, dW, Prod.mk.injEq, Fin.ext_iff, nx_val]
  split_ifs <;> omega
theorem corner3 {m : ℕ} (x : Fin m × Fin m) : cBL (dE x) = cTR (dS x) := by
  have := x.1.2
  have := x.2.2
  simp only [cBL, cTR, cTL, dE, dS, Prod.mk.injEq, Fin.ext_iff, nx_val]
  split_ifs <;> omega
theorem corner4 {m : ℕ} (x : Fin m × Fin m) : cBR (dW x) = cTL (dS x) := by
  have := x.1.2
  have := x.2.2
  simp only [cBR, cTL, dW, dS, Prod.mk.injEq, Fin.ext_iff, nx_val]
  split_ifs <;> omega

theorem diam_shapes {lib : Lib 𝕜} (he : Exact lib) {m : ℕ} {t : ℕ → Tn 𝕜} {dim : Fin (2 * m) × Fin (2 * m) → ℕ}
    (hf : RFits m t dim) (x : Fin m × Fin m) :
    (diamT lib m t x).shape = [diamDim lib t (dW x), diamDim lib t (dS x), diamDim lib t (dE x),
      diamDim lib t (dN x)] ∧
    ∀ w s e n, (diamT lib m t x).elem [w, s, e, n] =
      ∑ i ∈ Finset.range (dim (de (x, 0))), ∑ j ∈ Finset.range (dim (de (x, 1))),
      ∑ k ∈ Finset.range (dim (de (x, 2))), ∑ l ∈ Finset.range (dim (de (x, 3))),
        (splitPieces lib true (t (rid (dS x)))).2.elem [k, i, s] *
          (splitPieces lib false (t (rid (dW x)))).2.elem [w, j, k] *
        ((splitPieces lib true (t (rid (dN x)))).1.elem [n, l, j] *
          (splitPieces lib false (t (rid (dE x)))).1.elem [l, i, e]) := by
  have h0 := (split1 he (hf (dN x))).2
  have h1 := (split0 he (hf (dE x))).1
  have h2 := (split1 he (hf (dS x))).1
  have h3 := (split0 he (hf (dW x))).2
  rw [corner1, corner2] at h0
  rw [corner3] at h1
  rw [corner4] at h3
  have := diam_elem h0 h1 h2 h3
  unfold diamDim
  rw [ty_N, ty_E, ty_S, ty_W]
  exact this

/-- **Diamonds.** -/
theorem diam_step {lib : Lib 𝕜} (he : Exact lib) (hn : SvdNonNeg lib) {m : ℕ} {t : ℕ → Tn 𝕜}
    {dim : Fin (2 * m) × Fin (2 * m) → ℕ} (hf : RFits m t dim)
    (h0 : ∀ w : Fin (2 * m) × Fin m, (factors lib (rotTy w) (t (rid w))).err = 0) {t' : ℕ → Tn 𝕜}
    (ht' : ∀ x : Fin m × Fin m, t' (x.1 * m + x.2) = diamT lib m t x) :
    TFits m t' (fun b => diamDim lib t (bondNode b)) ∧
      rvalue m dim t = tvalue m (fun b => diamDim lib t (bondNode b)) t' := by
  refine ⟨fun x => ?_, ?_⟩
  · simp only [ht', (diam_shapes he hf x).1, bondNode_W, bondNode_S, bondNode_E, bondNode_N]
  have key : rvalue m dim t = ∑ γ ∈ Fintype.piFinset fun w => Finset.range (diamDim lib t w),
      ∏ x : Fin m × Fin m, (diamT lib m t x).elem [γ (dW x), γ (dS x), γ (dE x), γ (dN x)] := by
    refine regroup dim (diamDim lib t)
      (fun w α => (t (w.1 * m + w.2)).elem [α (cTL w), α (cTR w), α (cBR w), α (cBL w)])
      (fun w α a => if rotTy w then (splitPieces lib true (t (rid w))).1.elem [a, α (cBR w), α (cBL w)]
        else (splitPieces lib false (t (rid w))).1.elem [α (cTL w), α (cBL w), a])
      (fun w α a => if rotTy w then (splitPieces lib true (t (rid w))).2.elem [α (cTL w), α (cTR w), a]
        else (splitPieces lib false (t (rid w))).2.elem [a, α (cTR w), α (cBR w)])
      ?_ de de_bij dp dq dp_bij dq_bij _
      (fun x γ y => (splitPieces lib true (t (rid (dS x)))).2.elem [y 2, y 0, γ (dS x)] *
          (splitPieces lib false (t (rid (dW x)))).2.elem [γ (dW x), y 1, y 2] *
        ((splitPieces lib true (t (rid (dN x)))).1.elem [γ (dN x), y 3, y 1] *
          (splitPieces lib false (t (rid (dE x)))).1.elem [y 3, y 0, γ (dE x)])) ?_ ?_
    · intro α hα w
      rw [Fintype.mem_piFinset] at hα
      have hb := fun b => Finset.mem_range.1 (hα b)
      cases hw : rotTy w
      · simp only [Bool.false_eq_true, if_false]
        have := h0 w
        rw [hw] at this
        unfold diamDim
        rw [hw]
        exact split0_sum he hn (hf w) this (hb _) (hb _) (hb _) (hb _)
      · simp only [if_true]
        have := h0 w
        rw [hw] at this
        unfold diamDim
        rw [hw]
        exact split1_sum he hn (hf w) this (hb _) (hb _) (hb _) (hb _)
    · intro x γ α
      dsimp only [dp, dq, de]
      simp only [ty_N, ty_E, ty_S, ty_W, corner1, corner2, corner3, corner4, if_true, Bool.false_eq_true, if_false]
      rw [mul_comm]
    · intro x γ _
      rw [(diam_shapes he hf x).2]
      rfl
  rw [key, sum_relabel (Equiv.ofBijective _ bondNode_bij)]
  unfold tvalue
  refine Finset.sum_congr rfl fun γ _ => Finset.prod_congr rfl fun x _ => ?_
  have hi : ∀ b, (Equiv.ofBijective _ (bondNode_bij (m := m))).symm (bondNode b) = b :=
    fun b => (Equiv.ofBijective _ (bondNode_bij (m := m))).symm_apply_apply b
  simp only [ht', ← bondNode_W, ← bondNode_S, ← bondNode_E, ← bondNode_N, hi]

end

end QLPeps.Trg
