import Verif.Lemmas.PepsLocal
import Verif.Lemmas.PepsWave

/-!
# The projections, cluster by cluster
-/

namespace QLPeps.Peps

open QLPeps.State (BC)
open QLPeps.Tps.Spec (Bond Site leg external slots)
open QLPeps.Peps.Spec

/-- the algebra of a two-site projection for fixed outer bonds -/
theorem core2 {𝕜 : Type*} [Field 𝕜] {K0 K1 A B D D' : ℕ} {gl gr gl' gr' : ℕ → ℕ → 𝕜}
    {q0 q1 : ℕ → 𝕜} {r0 r1 u vt : ℕ → ℕ → ℕ → 𝕜} {lam lam' : ℕ → 𝕜} {g : ℕ → ℕ → 𝕜}
    {cl cr il ir N : 𝕜} {x y : ℕ} (hl : il * cl = 1) (hr : ir * cr = 1)
    (h0 : ∀ i < A, ∀ b < D, ∑ k ∈ Finset.range K0, q0 k * r0 k i b = gl i b * cl)
    (h1 : ∀ j < B, ∀ b < D, ∑ k ∈ Finset.range K1, q1 k * r1 k j b = gr j b * cr)
    (hs : ∀ k < K0, ∀ k' < K1, ∑ l ∈ Finset.range D', u k x l * lam' l * vt l k' y =
      (∑ i ∈ Finset.range A, ∑ j ∈ Finset.range B,
        (∑ b ∈ Finset.range D, r0 k i b * lam b * r1 k' j b) * g i j) / N)
    (hgl : ∀ l < D', gl' x l = ∑ k ∈ Finset.range K0, q0 k * il * u k x l)
    (hgr : ∀ l < D', gr' y l = ∑ k ∈ Finset.range K1, q1 k * ir * vt l k y) :
    ∑ l ∈ Finset.range D', gl' x l * lam' l * gr' y l =
      N⁻¹ * ∑ i ∈ Finset.range A, ∑ j ∈ Finset.range B,
        g i j * ∑ b ∈ Finset.range D, gl i b * lam b * gr j b := by
  have e1 : ∑ l ∈ Finset.range D', gl' x l * lam' l * gr' y l =
      ∑ k ∈ Finset.range K0, ∑ k' ∈ Finset.range K1, q0 k * il * (q1 k' * ir) *
        ∑ l ∈ Finset.range D', u k x l * lam' l * vt l k' y := by
    simp only [Finset.mul_sum]
    rw [Finset.sum_congr rfl fun k _ => Finset.sum_comm, Finset.sum_comm]
    refine Finset.sum_congr rfl fun l hl => ?_
    rw [hgl l (Finset.mem_range.1 hl), hgr l (Finset.mem_range.1 hl), Finset.sum_mul,
      Finset.sum_mul]
    refine Finset.sum_congr rfl fun k _ => ?_
    rw [Finset.mul_sum]
    exact Finset.sum_congr rfl fun k' _ => by ring
  have e2 : ∀ i < A, ∀ j < B, ∑ b ∈ Finset.range D, gl i b * lam b * gr j b =
      ∑ k ∈ Finset.range K0, ∑ k' ∈ Finset.range K1, q0 k * il * (q1 k' * ir) *
        ∑ b ∈ Finset.range D, r0 k i b * lam b * r1 k' j b := by
    intro i hi j hj
    simp only [Finset.mul_sum]
    rw [Finset.sum_congr rfl fun k _ => Finset.sum_comm, Finset.sum_comm]
    refine Finset.sum_congr rfl fun b hb => ?_
    have a0 : gl i b = il * ∑ k ∈ Finset.range K0, q0 k * r0 k i b := by
      rw [h0 i hi b (Finset.mem_range.1 hb), mul_comm (gl i b), ← mul_assoc, hl, one_mul]
    have a1 : gr j b = ir * ∑ k ∈ Finset.range K1, q1 k * r1 k j b := by
      rw [h1 j hj b (Finset.mem_range.1 hb), mul_comm (gr j b), ← mul_assoc, hr, one_mul]
    rw [a0, a1, Finset.mul_sum, Finset.sum_mul, Finset.sum_mul]
    refine Finset.sum_congr rfl fun k _ => ?_
    rw [Finset.mul_sum, Finset.mul_sum]
    exact Finset.sum_congr rfl fun k' _ => by ring
  rw [e1]
  have e3 : ∀ i ∈ Finset.range A, ∀ j ∈ Finset.range B,
      g i j * ∑ b ∈ Finset.range D, gl i b * lam b * gr j b =
      ∑ k ∈ Finset.range K0, ∑ k' ∈ Finset.range K1, q0 k * il * (q1 k' * ir) *
        ((∑ b ∈ Finset.range D, r0 k i b * lam b * r1 k' j b) * g i j) := by
    intro i hi j hj
    rw [e2 i (Finset.mem_range.1 hi) j (Finset.mem_range.1 hj)]
    simp only [Finset.mul_sum, Finset.sum_mul]
    exact Finset.sum_congr rfl fun k _ => Finset.sum_congr rfl fun k' _ =>
      Finset.sum_congr rfl fun b _ => by ring
  rw [Finset.sum_congr rfl fun i hi => Finset.sum_congr rfl fun j hj => e3 i hi j hj]
  conv_rhs =>
    rw [Finset.sum_congr rfl fun i _ => Finset.sum_comm, Finset.sum_comm, Finset.mul_sum]
  refine Finset.sum_congr rfl fun k hk => ?_
  conv_rhs =>
    rw [Finset.sum_congr rfl fun i _ => Finset.sum_comm, Finset.sum_comm, Finset.mul_sum]
  refine Finset.sum_congr rfl fun k' hk' => ?_
  rw [hs k (Finset.mem_range.1 hk) k' (Finset.mem_range.1 hk'), div_eq_mul_inv]
  simp only [Finset.mul_sum, Finset.sum_mul]
  exact Finset.sum_congr rfl fun i _ => Finset.sum_congr rfl fun j _ =>
    Finset.sum_congr rfl fun b _ => by ring

variable {𝕜 : Type*} [RCLike 𝕜] {bc : BC} {rows cols : ℕ}

section
variable {p : Peps 𝕜} (hr : p.rows = rows) (hc : p.cols = cols) (hbc : p.bc = bc)
  (s : Site rows cols)

theorem sumCoors_nonneg (sh : List ℕ) {f : List ℕ → ℝ} (hf : ∀ x, 0 ≤ f x) : 0 ≤ sumCoors sh f := by
  induction sh generalizing f with
  | nil => exact hf _
  | cons n ns ih => exact Finset.sum_nonneg fun k _ => ih fun x => hf _

theorem le_sumCoors (sh : List ℕ) {f : List ℕ → ℝ} (hf : ∀ x, 0 ≤ f x) {x : List ℕ}
    (hx : Valid sh x) : f x ≤ sumCoors sh f := by
  induction sh generalizing f x with
  | nil => cases hx; exact le_rfl
  | cons n ns ih =>
    obtain ⟨k, y, hk, hy, rfl⟩ := List.forall₂_cons_right_iff.1 hx
    exact (ih (f := fun x => f (k :: x)) (fun x => hf _) hy).trans
      (Finset.single_le_sum (f := fun k => sumCoors ns fun x => f (k :: x))
        (fun k _ => sumCoors_nonneg ns fun x => hf _) (Finset.mem_range.2 hk))

theorem norm2_mul {𝕜 : Type*} [RCLike 𝕜] (t : Tn 𝕜) {x : List ℕ} (hx : Valid t.shape x) :
    (norm2 t : 𝕜) * (normalized t).elem x = t.elem x := by
  simp only [normalized]
  by_cases h : norm2 t = 0
  · have h0 : ‖t.elem x‖ ^ 2 ≤ 0 := by
      have := le_sumCoors t.shape (f := fun x => ‖t.elem x‖ ^ 2) (fun x => by positivity) hx
      rw [norm2, Real.sqrt_eq_zero (sumCoors_nonneg _ fun x => by positivity)] at h
      exact h ▸ this
    have : t.elem x = 0 := by
      rw [← norm_eq_zero]
      exact pow_eq_zero_iff (two_ne_zero) |>.1 (le_antisymm h0 (by positivity))
    rw [this, h]
    simp
  · have h' : (norm2 t : 𝕜) ≠ 0 := by exact_mod_cast h
    field_simp

/-- the same without dividing by the norm -/
theorem core2' {𝕜 : Type*} [Field 𝕜] {K0 K1 A B D D' : ℕ} {gl gr gl' gr' : ℕ → ℕ → 𝕜}
    {q0 q1 : ℕ → 𝕜} {r0 r1 u vt : ℕ → ℕ → ℕ → 𝕜} {lam lam' : ℕ → 𝕜} {g : ℕ → ℕ → 𝕜}
    {cl cr il ir N : 𝕜} {x y : ℕ} (hl : il * cl = 1) (hr : ir * cr = 1)
    (h0 : ∀ i < A, ∀ b < D, ∑ k ∈ Finset.range K0, q0 k * r0 k i b = gl i b * cl)
    (h1 : ∀ j < B, ∀ b < D, ∑ k ∈ Finset.range K1, q1 k * r1 k j b = gr j b * cr)
    (hs : ∀ k < K0, ∀ k' < K1, N * ∑ l ∈ Finset.range D', u k x l * lam' l * vt l k' y =
      ∑ i ∈ Finset.range A, ∑ j ∈ Finset.range B,
        (∑ b ∈ Finset.range D, r0 k i b * lam b * r1 k' j b) * g i j)
    (hgl : ∀ l < D', gl' x l = ∑ k ∈ Finset.range K0, q0 k * il * u k x l)
    (hgr : ∀ l < D', gr' y l = ∑ k ∈ Finset.range K1, q1 k * ir * vt l k y) :
    N * ∑ l ∈ Finset.range D', gl' x l * lam' l * gr' y l =
      ∑ i ∈ Finset.range A, ∑ j ∈ Finset.range B,
        g i j * ∑ b ∈ Finset.range D, gl i b * lam b * gr j b := by
  have := core2 (lam' := fun l => N * lam' l) (N := 1) hl hr h0 h1 (fun k hk k' hk' => by
    rw [div_one, ← hs k hk k' hk', Finset.mul_sum]
    exact Finset.sum_congr rfl fun l _ => by ring) hgl hgr
  rw [inv_one, one_mul] at this
  rw [← this, Finset.mul_sum]
  exact Finset.sum_congr rfl fun l _ => by ring

theorem west_eq : p.west s.1 s.2 = weight p (leg bc s 0) := rfl

theorem north_eq : p.north s.1 s.2 = weight p (leg bc s 3) := rfl

include hr hbc in
theorem south_eq : p.south s.1 s.2 = weight p (leg bc s 1) := by
  subst hbc
  simp only [Peps.south, weight, leg, slots]
  split
  · next h => rw [Nat.mod_eq_of_lt (by have := s.1.2; omega)]
  · next h => rw [hr]

include hc hbc in
theorem east_eq : p.east s.1 s.2 = weight p (leg bc s 2) := by
  subst hbc
  simp only [Peps.east, weight, leg, slots]
  split
  · next h => rw [Nat.mod_eq_of_lt (by have := s.2.2; omega)]
  · next h => rw [hc]

include hc hbc in
theorem hCols_eq : p.hCols = slots bc cols := by
  subst hbc; simp only [Peps.hCols, slots, hc]

include hr hbc in
theorem vRows_eq : p.vRows = slots bc rows := by
  subst hbc; simp only [Peps.vRows, slots, hr]

end

theorem weight_setH (p : Peps 𝕜) (s : Site rows cols) (d : Diag) (b : Bond bc rows cols) :
    weight (p.setH s.1 s.2 d) b = if b = leg bc s 0 then d else weight p b := by
  rcases b with ⟨r, c⟩ | ⟨r, c⟩
  · simp only [weight, Peps.setH, leg, Sum.inl.injEq, Prod.mk.injEq, Fin.ext_iff]
  · rw [if_neg (by exact Sum.inr_ne_inl)]
    rfl

theorem weight_setV (p : Peps 𝕜) (s : Site rows cols) (d : Diag) (b : Bond bc rows cols) :
    weight (p.setV s.1 s.2 d) b = if b = leg bc s 3 then d else weight p b := by
  rcases b with ⟨r, c⟩ | ⟨r, c⟩
  · rw [if_neg (by exact Sum.inl_ne_inr)]
    rfl
  · simp only [weight, Peps.setV, leg, Sum.inr.injEq, Prod.mk.injEq, Fin.ext_iff]

theorem weight_setGamma (p : Peps 𝕜) (r c : ℕ) (t : Tn 𝕜) (b : Bond bc rows cols) :
    weight (p.setGamma r c t) b = weight p b := by
  cases b <;> rfl

theorem gamma_setGamma (p : Peps 𝕜) (s t : Site rows cols) (g : Tn 𝕜) :
    (p.setGamma s.1 s.2 g).gamma t.1 t.2 = if t = s then g else p.gamma t.1 t.2 := by
  simp only [Peps.setGamma, Prod.ext_iff, Fin.ext_iff]

theorem n32 {t : Tn 𝕜} {a0 a1 a2 : ℕ} (ht : t.shape = [a0, a1, a2]) (d : Diag) :
    (contractN t [2] d.ten [0]).shape = [a0, a1, d.dim] ∧ ∀ k i b, b < a2 →
      (contractN t [2] d.ten [0]).elem [k, i, b] = t.elem [k, i, b] * (d.val b : 𝕜) := by
  obtain ⟨sh, g⟩ := t
  obtain rfl : sh = _ := ht
  refine ⟨rfl, fun k i b hb => ?_⟩
  change ∑ m ∈ Finset.range a2, g [k, i, m] * (if m = b then (d.val m : 𝕜) else 0) = _
  rw [Finset.sum_eq_single b (fun m _ h => by rw [if_neg h, mul_zero])
    (fun h => absurd (Finset.mem_range.2 hb) h), if_pos rfl]

theorem c32 {t : Tn 𝕜} {a0 a1 a2 : ℕ} (ht : t.shape = [a0, a1, a2]) (d : Diag) :
    (contract t 2 d.ten 0).shape = [a0, a1, d.dim] ∧ ∀ k i b, b < a2 →
      (contract t 2 d.ten 0).elem [k, i, b] = t.elem [k, i, b] * (d.val b : 𝕜) := by
  obtain ⟨sh, g⟩ := t
  obtain rfl : sh = _ := ht
  exact ⟨rfl, fun k i b hb => contract_ten0 ⟨[a0, a1, a2], g⟩ 2 d [k, i] b rfl hb⟩

theorem gate2 {t2 r1 gate : Tn 𝕜} {K0 K1 A B D E F G H I : ℕ} (h0 : t2.shape = [K0, A, D])
    (h1 : r1.shape = [K1, B, E]) (hg : gate.shape = [F, G, H, I]) :
    (contractN (contract t2 2 r1 2) [1, 3] gate [0, 1]).shape = [K0, K1, H, I] ∧
    ∀ k k' x y, (contractN (contract t2 2 r1 2) [1, 3] gate [0, 1]).elem [k, k', x, y] =
      ∑ i ∈ Finset.range A, ∑ j ∈ Finset.range B,
        (∑ b ∈ Finset.range D, t2.elem [k, i, b] * r1.elem [k', j, b]) * gate.elem [i, j, x, y] := by
  obtain ⟨sh, g⟩ := t2
  obtain rfl : sh = _ := h0
  obtain ⟨sh, g1⟩ := r1
  obtain rfl : sh = _ := h1
  obtain ⟨sh, g2⟩ := gate
  obtain rfl : sh = _ := hg
  exact ⟨rfl, fun k k' x y => rfl⟩

theorem valid1 {a i : ℕ} (h : i < a) : Valid [a] [i] := .cons h .nil
theorem valid2 {a b i j : ℕ} (h : i < a) (h2 : j < b) : Valid [a, b] [i, j] := .cons h (valid1 h2)
theorem valid3 {a b c i j k : ℕ} (h : i < a) (h2 : j < b) (h3 : k < c) :
    Valid [a, b, c] [i, j, k] := .cons h (valid2 h2 h3)

theorem qr3 {lib : Lib 𝕜} (hlib : Exact lib) {t : Tn 𝕜} {a b c d e : ℕ}
    (ht : t.shape = [a, b, c, d, e]) : ∃ K, (lib.qr t 3).1.shape = [a, b, c, K] ∧
    (lib.qr t 3).2.shape = [K, d, e] ∧ ∀ x < a, ∀ y < b, ∀ z < c, ∀ i < d, ∀ j < e,
      ∑ k ∈ Finset.range K, (lib.qr t 3).1.elem [x, y, z, k] * (lib.qr t 3).2.elem [k, i, j] =
        t.elem [x, y, z, i, j] := by
  obtain ⟨K, h1, h2, h3⟩ := hlib.qr t 3
  rw [ht] at h1 h2 h3
  exact ⟨K, h1, h2, fun x hx y hy z hz i hi j hj =>
    h3 [x, y, z] [i, j] (valid3 hx hy hz) (valid2 hi hj)⟩

theorem svd22 {lib : Lib 𝕜} (hlib : Exact lib) {t : Tn 𝕜} {a b c d : ℕ}
    (ht : t.shape = [a, b, c, d]) : (lib.svd t 2).u.shape = [a, b, (lib.svd t 2).s.dim] ∧
    (lib.svd t 2).vt.shape = [(lib.svd t 2).s.dim, c, d] ∧ ((lib.svd t 2).err = 0 →
      ∀ x < a, ∀ y < b, ∀ i < c, ∀ j < d,
      ∑ m ∈ Finset.range (lib.svd t 2).s.dim, (lib.svd t 2).u.elem [x, y, m] *
        ((lib.svd t 2).s.val m : 𝕜) * (lib.svd t 2).vt.elem [m, i, j] = t.elem [x, y, i, j]) := by
  have h1 := hlib.svd_shape t 2
  have h2 := hlib.svd t 2
  rw [ht] at h1 h2
  exact ⟨h1.1, h1.2, fun he x hx y hy i hi j hj => h2 he [x, y] [i, j] (valid2 hx hy) (valid2 hi hj)⟩

theorem left_h {t u : Tn 𝕜} {K a b c A D : ℕ} (ht : t.shape = [K, a, b, c])
    (hu : u.shape = [K, A, D]) :
    (transpose [1, 2, 4, 0, 3] (contract t 0 u 0)).shape = [b, c, D, a, A] ∧
    ∀ w s l n x, (transpose [1, 2, 4, 0, 3] (contract t 0 u 0)).elem [w, s, l, n, x] =
      ∑ k ∈ Finset.range K, t.elem [k, n, w, s] * u.elem [k, x, l] := by
  obtain ⟨sh, g⟩ := t
  obtain rfl : sh = _ := ht
  obtain ⟨sh, g'⟩ := u
  obtain rfl : sh = _ := hu
  exact ⟨rfl, fun _ _ _ _ _ => rfl⟩

theorem right_h {t u : Tn 𝕜} {K a b c A D : ℕ} (ht : t.shape = [K, a, b, c])
    (hu : u.shape = [D, K, A]) :
    (transpose [4, 0, 1, 2, 3] (contract t 0 u 1)).shape = [D, a, b, c, A] ∧
    ∀ s m l n x, (transpose [4, 0, 1, 2, 3] (contract t 0 u 1)).elem [l, s, m, n, x] =
      ∑ k ∈ Finset.range K, t.elem [k, s, m, n] * u.elem [l, k, x] := by
  obtain ⟨sh, g⟩ := t
  obtain rfl : sh = _ := ht
  obtain ⟨sh, g'⟩ := u
  obtain rfl : sh = _ := hu
  exact ⟨rfl, fun _ _ _ _ _ => rfl⟩

/-- position of the right neighbour -/
theorem next_h {p : Peps 𝕜} (hc : p.cols = cols) (hbc : p.bc = bc) {s s' : Site rows cols}
    (hb : leg bc s 2 = leg bc s' 0) : (s.1 : ℕ) = s'.1 ∧ ((s.2 : ℕ) + 1) % p.hCols = s'.2 := by
  rw [hCols_eq hc hbc]
  simp only [leg, Sum.inl.injEq, Prod.mk.injEq, Fin.mk.injEq] at hb
  exact ⟨by rw [hb.1], hb.2⟩



theorem slot_not_external {n a b : ℕ} (ha : a < n) (hb : b < n) (h : (a + 1) % slots bc n = b)
    (hbc : bc = .obc) : b ≠ 0 ∧ b ≠ n := by
  subst hbc
  simp only [slots, if_true] at h
  rw [Nat.mod_eq_of_lt (by omega)] at h
  omega

theorem not_external_h {s s' : Site rows cols} (hb : leg bc s 2 = leg bc s' 0) :
    ¬ external bc (leg bc s 2) := by
  intro h
  rw [hb] at h
  simp only [leg, Sum.inl.injEq, Prod.mk.injEq, Fin.mk.injEq] at hb
  have := slot_not_external s.2.2 s'.2.2 hb.2 h.1
  rcases h.2 with h | h
  · exact this.1 h
  · exact this.2 h

theorem not_external_v {s s' : Site rows cols} (hb : leg bc s 1 = leg bc s' 3) :
    ¬ external bc (leg bc s 1) := by
  intro h
  rw [hb] at h
  simp only [leg, Sum.inr.injEq, Prod.mk.injEq, Fin.mk.injEq] at hb
  have := slot_not_external s.1.2 s'.1.2 hb.1 h.1
  rcases h.2 with h | h
  · exact this.1 h
  · exact this.2 h

theorem above_inv3 {tol : ℝ} (htol : 0 ≤ tol) {a b c : Diag} (ha : Above tol a) (hb : Above tol b)
    (hc : Above tol c) {i j k : ℕ} (hi : i < a.dim) (hj : j < b.dim) (hk : k < c.dim) :
    ((diagInv tol a).val i : 𝕜) * ((diagInv tol b).val j : 𝕜) * ((diagInv tol c).val k : 𝕜) *
      ((a.val i : 𝕜) * (b.val j : 𝕜) * (c.val k : 𝕜)) = 1 := by
  have h1 := diagInv_mul (𝕜 := 𝕜) ha htol hi
  have h2 := diagInv_mul (𝕜 := 𝕜) hb htol hj
  have h3 := diagInv_mul (𝕜 := 𝕜) hc htol hk
  calc _ = (((diagInv tol a).val i : 𝕜) * (a.val i : 𝕜)) * (((diagInv tol b).val j : 𝕜) * (b.val j : 𝕜)) *
      (((diagInv tol c).val k : 𝕜) * (c.val k : 𝕜)) := by ring
    _ = 1 := by rw [h1, h2, h3]; ring

/-- the horizontal projection with the position of the right site given -/
noncomputable def nnH (lib : Lib 𝕜) (tol : ℝ) (p : Peps 𝕜) (gate : Tn 𝕜) (row col row' col' : ℕ)
    (ham : Option (Tn 𝕜)) : Res 𝕜 :=
  let A := lib.qr (eat3 p row col .right) 3
  let B := lib.qr (eat3 p row' col' .left) 3
  let t4 := contractN (contract (contractN A.2 [2] (p.lamH row' col').ten [0]) 2 B.2 2) [1, 3] gate
    [0, 1]
  let f := lib.svd (transpose [0, 2, 1, 3] (normalized t4)) 2
  let p1 := p.setH row' col' f.s
  let p2 := p1.setGamma row col
    (transpose [1, 2, 4, 0, 3] (contract (split tol p1 A.1 row col .right) 0 f.u 0))
  ⟨p2.setGamma row' col'
    (transpose [4, 0, 1, 2, 3] (contract (split tol p2 B.1 row' col' .left) 0 f.vt 1)),
    norm2 t4, f.err, f.dim, ham.map fun h => twoSiteEnergy h (normalized t4)⟩

theorem nnH_eq (lib : Lib 𝕜) (tol : ℝ) (p : Peps 𝕜) (gate : Tn 𝕜) (row col row' col' : ℕ)
    (ham : Option (Tn 𝕜)) (hr : row = row') (hc : (col + 1) % p.hCols = col') :
    nnProject lib tol p gate row col ham .horizontal =
      nnH lib tol p gate row col row' col' ham := by
  subst hr hc
  rfl

theorem nn_horizontal {lib : Lib 𝕜} (hlib : Exact lib) {tol : ℝ} (htol : 0 ≤ tol) {p : Peps 𝕜}
    {phys : Site rows cols → ℕ} {dim : Bond bc rows cols → ℕ} (hf : Fits p phys dim)
    {s s' : Site rows cols} (hne : s ≠ s') (hb : leg bc s 2 = leg bc s' 0) {gate : Tn 𝕜}
    (hgate : gate.shape = [phys s, phys s', phys s, phys s'])
    (hab : ∀ k, k ≠ 2 → Above tol (weight p (leg bc s k)))
    (hab' : ∀ k, k ≠ 0 → Above tol (weight p (leg bc s' k))) (ham : Option (Tn 𝕜))
    (herr : (nnProject lib tol p gate s.1 s.2 ham .horizontal).err = 0) :
    let res := nnProject lib tol p gate s.1 s.2 ham .horizontal
    Fits res.peps phys (Function.update dim (leg bc s 2) res.dim) ∧
    ∀ σ, (∀ t, σ t < phys t) →
      (res.norm : 𝕜) * amplitude res.peps (Function.update dim (leg bc s 2) res.dim) σ =
        apply2 phys gate s s' (amplitude p dim) σ := by
  obtain ⟨hrow, hcol⟩ := next_h hf.cols_eq hf.bc_eq hb
  rw [nnH_eq _ _ _ _ _ _ _ _ _ hrow hcol] at herr ⊢
  have hlamH : p.lamH s'.1 s'.2 = weight p (leg bc s 2) := by rw [hb]; rfl
  -- legs of the two sites other than the common one
  have hs : ∀ k, k ≠ 2 → leg bc s k ≠ leg bc s 2 := fun k hk h => by
    rcases ends_h hb h with h | h
    · exact hk h.2
    · exact hne h.1
  have hs' : ∀ k, k ≠ 0 → leg bc s' k ≠ leg bc s 2 := fun k hk h => by
    rcases ends_h hb h with h | h
    · exact hne h.1.symm
    · exact hk h.2
  simp only [nnH] at herr ⊢
  -- factors of the two site tensors
  have sh0 := eat3_right_shape p s.1 s.2 (hf.shape s)
  have sh1 := eat3_left_shape p s'.1 s'.2 (hf.shape s')
  rw [west_eq (bc := bc), north_eq (bc := bc), south_eq hf.rows_eq hf.bc_eq, hf.weight, hf.weight, hf.weight] at sh0
  rw [east_eq hf.cols_eq hf.bc_eq, north_eq (bc := bc), south_eq hf.rows_eq hf.bc_eq, hf.weight, hf.weight, hf.weight] at sh1
  obtain ⟨K0, q0s, r0s, h0⟩ := qr3 hlib sh0
  obtain ⟨K1, q1s, r1s, h1⟩ := qr3 hlib sh1
  generalize lib.qr (eat3 p s.1 s.2 .right) 3 = QA at *
  generalize lib.qr (eat3 p s'.1 s'.2 .left) 3 = QB at *
  obtain ⟨q0, r0⟩ := QA
  obtain ⟨q1, r1⟩ := QB
  rw [hlamH] at herr ⊢
  dsimp only at q0s r0s h0 q1s r1s h1 herr ⊢
  obtain ⟨t2s, t2e⟩ := n32 r0s (weight p (leg bc s 2))
  obtain ⟨t4s, t4e⟩ := gate2 t2s r1s hgate
  rw [hf.weight] at t2s t4e
  generalize contractN (contract (contractN r0 [2] (weight p (leg bc s 2)).ten [0]) 2 r1 2) [1, 3] gate [0, 1] = t4 at *
  have sT : (transpose [0, 2, 1, 3] (normalized t4)).shape = [K0, phys s, K1, phys s'] := by
    simp only [transpose, normalized, t4s]; rfl
  obtain ⟨us, vs, hsvd⟩ := svd22 hlib sT
  have hdim := hlib.svd_dim (transpose [0, 2, 1, 3] (normalized t4)) 2
  generalize lib.svd (transpose [0, 2, 1, 3] (normalized t4)) 2 = f at *
  have hsvd := hsvd herr
  rw [hdim]
  set p1 := p.setH s'.1 s'.2 f.s with hp1
  have w1 : ∀ b, b ≠ leg bc s 2 → weight p1 b = weight p b := fun b h => by
    rw [hp1, weight_setH, if_neg (hb ▸ h)]
  have hb0 : weight p1 (leg bc s 2) = f.s := by rw [hp1, weight_setH, if_pos hb]
  have sp0 := split_right_shape tol p1 q0 s.1 s.2 q0s
  rw [west_eq (bc := bc), north_eq (bc := bc), south_eq (bc := bc) (p := p1) hf.rows_eq hf.bc_eq,
    w1 _ (hs 0 (by decide)), w1 _ (hs 1 (by decide)), w1 _ (hs 3 (by decide)), hf.weight, hf.weight,
    hf.weight] at sp0
  obtain ⟨gls, gle⟩ := left_h sp0 us
  set p2 := p1.setGamma s.1 s.2
    (transpose [1, 2, 4, 0, 3] (contract (split tol p1 q0 s.1 s.2 .right) 0 f.u 0)) with hp2
  have w2 : ∀ b : Bond bc rows cols, weight p2 b = weight p1 b := fun b => weight_setGamma _ _ _ _ b
  have sp1 := split_left_shape tol p2 q1 s'.1 s'.2 q1s
  rw [north_eq (bc := bc), south_eq (bc := bc) (p := p2) hf.rows_eq hf.bc_eq,
    east_eq (bc := bc) (p := p2) hf.cols_eq hf.bc_eq, w2, w2, w2,
    w1 _ (hs' 1 (by decide)), w1 _ (hs' 2 (by decide)), w1 _ (hs' 3 (by decide)), hf.weight, hf.weight,
    hf.weight] at sp1
  obtain ⟨grs, gre⟩ := right_h sp1 vs
  set p3 := p2.setGamma s'.1 s'.2
    (transpose [4, 0, 1, 2, 3] (contract (split tol p2 q1 s'.1 s'.2 .left) 0 f.vt 1)) with hp3
  have w3 : ∀ b : Bond bc rows cols, weight p3 b = weight p1 b := fun b =>
    (weight_setGamma _ _ _ _ b).trans (w2 b)
  have g3 : ∀ t : Site rows cols, p3.gamma t.1 t.2 =
      if t = s' then transpose [4, 0, 1, 2, 3] (contract (split tol p2 q1 s'.1 s'.2 .left) 0 f.vt 1)
      else if t = s then
        transpose [1, 2, 4, 0, 3] (contract (split tol p1 q0 s.1 s.2 .right) 0 f.u 0)
      else p.gamma t.1 t.2 := fun t => by
    rw [hp3, gamma_setGamma, hp2, gamma_setGamma]
    rfl
  have hother : ∀ t, t ≠ s → t ≠ s' → ∀ k, leg bc t k ≠ leg bc s 2 := fun t h1 h2 k h => by
    rcases ends_h hb h with h | h
    · exact h1 h.1
    · exact h2 h.1
  refine ⟨⟨hf.rows_eq, hf.cols_eq, hf.bc_eq, fun t => ?_, fun b => ?_, fun b hbe => ?_⟩, fun σ hσ => ?_⟩
  · rw [g3]
    by_cases h : t = s'
    · subst h
      rw [if_pos rfl, grs, Function.update_of_ne (hs' 1 (by decide)),
        Function.update_of_ne (hs' 2 (by decide)), Function.update_of_ne (hs' 3 (by decide)), ← hb,
        Function.update_self]
    · rw [if_neg h]
      by_cases h' : t = s
      · subst h'
        rw [if_pos rfl, gls, Function.update_of_ne (hs 0 (by decide)),
          Function.update_of_ne (hs 1 (by decide)), Function.update_of_ne (hs 3 (by decide)),
          Function.update_self]
      · rw [if_neg h', hf.shape]
        simp only [Function.update_of_ne (hother t h' h _)]
  · rw [w3]
    by_cases h : b = leg bc s 2
    · subst h; rw [hb0, Function.update_self]
    · rw [w1 b h, Function.update_of_ne h, hf.weight]
  · have : b ≠ leg bc s 2 := fun h => not_external_h hb (h ▸ hbe)
    rw [Function.update_of_ne this, hf.external b hbe]
  · refine lift2 hne (b := leg bc s 2) (fun t k h => (ends_h hb h).imp (·.1) (·.1)) (fun t h1 h2 => ?_)
      (fun b h => (w3 b).trans (w1 b h)) (fun b h => Function.update_of_ne h _ _)
      (G := fun i j x y => gate.elem [i, j, x, y]) fun γ hγ => ?_
    · rw [g3, if_neg h2, if_neg h1]
    · rw [Function.update_self]
      unfold pair
      rw [g3, g3, if_neg hne, if_pos rfl, if_pos rfl, w3, hb0]
      have cs : ∀ l x, coords (Function.update γ (leg bc s 2) l) s x =
          [γ (leg bc s 0), γ (leg bc s 1), l, γ (leg bc s 3), x] := fun l x => by
        simp only [coords, Function.update_self, Function.update_of_ne (hs 0 (by decide)),
          Function.update_of_ne (hs 1 (by decide)), Function.update_of_ne (hs 3 (by decide))]
      have cs' : ∀ l x, coords (Function.update γ (leg bc s 2) l) s' x =
          [l, γ (leg bc s' 1), γ (leg bc s' 2), γ (leg bc s' 3), x] := fun l x => by
        simp only [coords, Function.update_of_ne (hs' 1 (by decide)),
          Function.update_of_ne (hs' 2 (by decide)), Function.update_of_ne (hs' 3 (by decide)), ← hb,
          Function.update_self]
      simp only [cs, cs']
      have b0 := hγ _ (hs 0 (by decide))
      have b1 := hγ _ (hs 1 (by decide))
      have b3 := hγ _ (hs 3 (by decide))
      have b1' := hγ _ (hs' 1 (by decide))
      have b2' := hγ _ (hs' 2 (by decide))
      have b3' := hγ _ (hs' 3 (by decide))
      refine core2' (q0 := fun k => q0.elem [γ (leg bc s 3), γ (leg bc s 0), γ (leg bc s 1), k])
        (q1 := fun k => q1.elem [γ (leg bc s' 1), γ (leg bc s' 2), γ (leg bc s' 3), k])
        (r0 := fun k i b => r0.elem [k, i, b]) (r1 := fun k i b => r1.elem [k, i, b])
        (u := fun k x l => f.u.elem [k, x, l]) (vt := fun l k x => f.vt.elem [l, k, x])
        (lam := fun l => ((weight p (leg bc s 2)).val l : 𝕜)) (lam' := fun l => (f.s.val l : 𝕜))
        (g := fun i j => gate.elem [i, j, σ s, σ s'])
        (gl := fun i l => (p.gamma s.1 s.2).elem
          [γ (leg bc s 0), γ (leg bc s 1), l, γ (leg bc s 3), i])
        (gr := fun j l => (p.gamma s'.1 s'.2).elem
          [l, γ (leg bc s' 1), γ (leg bc s' 2), γ (leg bc s' 3), j])
        (gl' := fun i l => (transpose [1, 2, 4, 0, 3] (contract (split tol p1 q0 s.1 s.2 .right) 0 f.u 0)).elem
          [γ (leg bc s 0), γ (leg bc s 1), l, γ (leg bc s 3), i])
        (gr' := fun j l => (transpose [4, 0, 1, 2, 3] (contract (split tol p2 q1 s'.1 s'.2 .left) 0 f.vt 1)).elem
          [l, γ (leg bc s' 1), γ (leg bc s' 2), γ (leg bc s' 3), j])
        (x := σ s) (y := σ s') (K0 := K0) (K1 := K1)
        (above_inv3 (𝕜 := 𝕜) htol (hab 3 (by decide)) (hab 0 (by decide)) (hab 1 (by decide))
          (by rwa [hf.weight]) (by rwa [hf.weight]) (by rwa [hf.weight]))
        (above_inv3 (𝕜 := 𝕜) htol (hab' 1 (by decide)) (hab' 2 (by decide)) (hab' 3 (by decide))
          (by rwa [hf.weight]) (by rwa [hf.weight]) (by rwa [hf.weight]))
        (fun i hi b hbD => ?_) (fun j hj b hbD => ?_) (fun k hk k' hk' => ?_) (fun l hl => ?_) (fun l hl => ?_)
      · rw [h0 _ b3 _ b0 _ b1 i hi b hbD, eat3_right p s.1 s.2 (hf.shape s) b3 b0 b1,
          west_eq (bc := bc), north_eq (bc := bc), south_eq (bc := bc) hf.rows_eq hf.bc_eq]
        ring
      · rw [h1 _ b1' _ b2' _ b3' j hj b (hb ▸ hbD), eat3_left p s'.1 s'.2 (hf.shape s') ?_ b2' b3',
          north_eq (bc := bc), south_eq (bc := bc) hf.rows_eq hf.bc_eq,
          east_eq (bc := bc) hf.cols_eq hf.bc_eq]
        · ring
        · rwa [south_eq (bc := bc) hf.rows_eq hf.bc_eq, hf.weight]
      · rw [hsvd k hk (σ s) (hσ s) k' hk' (σ s') (hσ s')]
        rw [show (norm2 t4 : 𝕜) * (transpose [0, 2, 1, 3] (normalized t4)).elem
          ([k, σ s, k', σ s']) = t4.elem [k, k', σ s, σ s'] from norm2_mul t4 (x := [k, k', σ s, σ s'])
          (by rw [t4s]; exact .cons hk (valid3 hk' (hσ s) (hσ s')))]
        rw [t4e]
        refine Finset.sum_congr rfl fun i _ => Finset.sum_congr rfl fun j _ => ?_
        congr 1
        exact Finset.sum_congr rfl fun b hb => by rw [t2e _ _ _ (Finset.mem_range.1 hb)]
      · rw [gle]
        refine Finset.sum_congr rfl fun k _ => ?_
        rw [split_right tol p1 q0 s.1 s.2 q0s b3 b0 b1, west_eq (bc := bc), north_eq (bc := bc),
          south_eq (bc := bc) (p := p1) hf.rows_eq hf.bc_eq, w1 _ (hs 0 (by decide)),
          w1 _ (hs 1 (by decide)), w1 _ (hs 3 (by decide))]
        ring
      · rw [gre]
        refine Finset.sum_congr rfl fun k _ => ?_
        rw [split_left tol p2 q1 s'.1 s'.2 q1s b1' b2' b3', north_eq (bc := bc),
          south_eq (bc := bc) (p := p2) hf.rows_eq hf.bc_eq,
          east_eq (bc := bc) (p := p2) hf.cols_eq hf.bc_eq, w2, w2, w2, w1 _ (hs' 1 (by decide)),
          w1 _ (hs' 2 (by decide)), w1 _ (hs' 3 (by decide))]
        ring

theorem left_v {t u : Tn 𝕜} {K a b c A D : ℕ} (ht : t.shape = [a, b, c, K])
    (hu : u.shape = [K, A, D]) :
    (transpose [2, 4, 0, 1, 3] (contract t 3 u 0)).shape = [c, D, a, b, A] ∧
    ∀ w l m n x, (transpose [2, 4, 0, 1, 3] (contract t 3 u 0)).elem [w, l, m, n, x] =
      ∑ k ∈ Finset.range K, t.elem [m, n, w, k] * u.elem [k, x, l] := by
  obtain ⟨sh, g⟩ := t
  obtain rfl : sh = _ := ht
  obtain ⟨sh, g'⟩ := u
  obtain rfl : sh = _ := hu
  exact ⟨rfl, fun _ _ _ _ _ => rfl⟩

theorem right_v {t u : Tn 𝕜} {K a b c A D : ℕ} (ht : t.shape = [a, K, b, c])
    (hu : u.shape = [D, K, A]) :
    (transpose [2, 1, 0, 4, 3] (contract t 1 u 1)).shape = [a, c, b, D, A] ∧
    ∀ w s m l x, (transpose [2, 1, 0, 4, 3] (contract t 1 u 1)).elem [w, s, m, l, x] =
      ∑ k ∈ Finset.range K, t.elem [w, k, m, s] * u.elem [l, k, x] := by
  obtain ⟨sh, g⟩ := t
  obtain rfl : sh = _ := ht
  obtain ⟨sh, g'⟩ := u
  obtain rfl : sh = _ := hu
  exact ⟨rfl, fun _ _ _ _ _ => rfl⟩

/-- position of the lower neighbour -/
theorem next_v {p : Peps 𝕜} (hr : p.rows = rows) (hbc : p.bc = bc) {s s' : Site rows cols}
    (hb : leg bc s 1 = leg bc s' 3) : (s.2 : ℕ) = s'.2 ∧
      ((s.1 : ℕ) + 1) % p.vRows = s'.1 ∧
      (if p.bc = .obc then (s.1 : ℕ) + 1 else ((s.1 : ℕ) + 1) % p.vRows) = s'.1 := by
  rw [vRows_eq hr hbc]
  simp only [leg, Sum.inr.injEq, Prod.mk.injEq, Fin.mk.injEq] at hb
  refine ⟨by rw [hb.2], hb.1, ?_⟩
  split
  · next h =>
    rw [← hb.1, slots, if_pos (hbc ▸ h), Nat.mod_eq_of_lt (by have := s.1.2; omega)]
  · exact hb.1

/-- the vertical projection with the position of the lower site given -/
noncomputable def nnV (lib : Lib 𝕜) (tol : ℝ) (p : Peps 𝕜) (gate : Tn 𝕜) (row col row' col' : ℕ)
    (ham : Option (Tn 𝕜)) : Res 𝕜 :=
  let A := lib.qr (eat3 p row col .down) 3
  let B := lib.qr (eat3 p row' col' .up) 3
  let t4 := contractN (contract (contract A.2 2 (p.lamV row' col').ten 0) 2 B.2 2) [1, 3] gate
    [0, 1]
  let f := lib.svd (transpose [0, 2, 1, 3] (normalized t4)) 2
  let p1 := p.setV row' col' f.s
  let p2 := p1.setGamma row col
    (transpose [2, 4, 0, 1, 3] (contract (split tol p1 A.1 row col .down) 3 f.u 0))
  ⟨p2.setGamma row' col'
    (transpose [2, 1, 0, 4, 3] (contract (split tol p2 B.1 row' col' .up) 1 f.vt 1)),
    norm2 t4, f.err, f.dim, ham.map fun h => twoSiteEnergy h (normalized t4)⟩

theorem nnV_eq (lib : Lib 𝕜) (tol : ℝ) (p : Peps 𝕜) (gate : Tn 𝕜) (row col row' col' : ℕ)
    (ham : Option (Tn 𝕜)) (hc : col = col')
    (hr : (if p.bc = .obc then row + 1 else (row + 1) % p.vRows) = row') :
    nnProject lib tol p gate row col ham .vertical =
      nnV lib tol p gate row col row' col' ham := by
  subst hr hc
  rfl

theorem nn_vertical {lib : Lib 𝕜} (hlib : Exact lib) {tol : ℝ} (htol : 0 ≤ tol) {p : Peps 𝕜}
    {phys : Site rows cols → ℕ} {dim : Bond bc rows cols → ℕ} (hf : Fits p phys dim)
    {s s' : Site rows cols} (hne : s ≠ s') (hb : leg bc s 1 = leg bc s' 3) {gate : Tn 𝕜}
    (hgate : gate.shape = [phys s, phys s', phys s, phys s'])
    (hab : ∀ k, k ≠ 1 → Above tol (weight p (leg bc s k)))
    (hab' : ∀ k, k ≠ 3 → Above tol (weight p (leg bc s' k))) (ham : Option (Tn 𝕜))
    (herr : (nnProject lib tol p gate s.1 s.2 ham .vertical).err = 0) :
    let res := nnProject lib tol p gate s.1 s.2 ham .vertical
    Fits res.peps phys (Function.update dim (leg bc s 1) res.dim) ∧
    ∀ σ, (∀ t, σ t < phys t) →
      (res.norm : 𝕜) * amplitude res.peps (Function.update dim (leg bc s 1) res.dim) σ =
        apply2 phys gate s s' (amplitude p dim) σ := by
  obtain ⟨hcol, -, hrow⟩ := next_v hf.rows_eq hf.bc_eq hb
  rw [nnV_eq _ _ _ _ _ _ _ _ _ hcol hrow] at herr ⊢
  have hlamH : p.lamV s'.1 s'.2 = weight p (leg bc s 1) := by rw [hb]; rfl
  -- legs of the two sites other than the common one
  have hs : ∀ k, k ≠ 1 → leg bc s k ≠ leg bc s 1 := fun k hk h => by
    rcases ends_v hb h with h | h
    · exact hk h.2
    · exact hne h.1
  have hs' : ∀ k, k ≠ 3 → leg bc s' k ≠ leg bc s 1 := fun k hk h => by
    rcases ends_v hb h with h | h
    · exact hne h.1.symm
    · exact hk h.2
  simp only [nnV] at herr ⊢
  -- factors of the two site tensors
  have sh0 := eat3_down_shape p s.1 s.2 (hf.shape s)
  have sh1 := eat3_up_shape p s'.1 s'.2 (hf.shape s')
  rw [west_eq (bc := bc), north_eq (bc := bc), east_eq hf.cols_eq hf.bc_eq, hf.weight, hf.weight,
    hf.weight] at sh0
  rw [east_eq hf.cols_eq hf.bc_eq, west_eq (bc := bc), south_eq hf.rows_eq hf.bc_eq, hf.weight,
    hf.weight, hf.weight] at sh1
  obtain ⟨K0, q0s, r0s, h0⟩ := qr3 hlib sh0
  obtain ⟨K1, q1s, r1s, h1⟩ := qr3 hlib sh1
  generalize lib.qr (eat3 p s.1 s.2 .down) 3 = QA at *
  generalize lib.qr (eat3 p s'.1 s'.2 .up) 3 = QB at *
  obtain ⟨q0, r0⟩ := QA
  obtain ⟨q1, r1⟩ := QB
  rw [hlamH] at herr ⊢
  dsimp only at q0s r0s h0 q1s r1s h1 herr ⊢
  obtain ⟨t2s, t2e⟩ := c32 r0s (weight p (leg bc s 1))
  obtain ⟨t4s, t4e⟩ := gate2 t2s r1s hgate
  rw [hf.weight] at t2s t4e
  generalize contractN (contract (contract r0 2 (weight p (leg bc s 1)).ten 0) 2 r1 2) [1, 3] gate
    [0, 1] = t4 at *
  have sT : (transpose [0, 2, 1, 3] (normalized t4)).shape = [K0, phys s, K1, phys s'] := by
    simp only [transpose, normalized, t4s]; rfl
  obtain ⟨us, vs, hsvd⟩ := svd22 hlib sT
  have hdim := hlib.svd_dim (transpose [0, 2, 1, 3] (normalized t4)) 2
  generalize lib.svd (transpose [0, 2, 1, 3] (normalized t4)) 2 = f at *
  have hsvd := hsvd herr
  rw [hdim]
  set p1 := p.setV s'.1 s'.2 f.s with hp1
  have w1 : ∀ b, b ≠ leg bc s 1 → weight p1 b = weight p b := fun b h => by
    rw [hp1, weight_setV, if_neg (hb ▸ h)]
  have hb0 : weight p1 (leg bc s 1) = f.s := by rw [hp1, weight_setV, if_pos hb]
  have sp0 := split_down_shape tol p1 q0 s.1 s.2 q0s
  rw [west_eq (bc := bc), north_eq (bc := bc), east_eq (bc := bc) (p := p1) hf.cols_eq hf.bc_eq,
    w1 _ (hs 0 (by decide)), w1 _ (hs 2 (by decide)), w1 _ (hs 3 (by decide)), hf.weight, hf.weight,
    hf.weight] at sp0
  obtain ⟨gls, gle⟩ := left_v sp0 us
  set p2 := p1.setGamma s.1 s.2
    (transpose [2, 4, 0, 1, 3] (contract (split tol p1 q0 s.1 s.2 .down) 3 f.u 0)) with hp2
  have w2 : ∀ b : Bond bc rows cols, weight p2 b = weight p1 b := fun b => weight_setGamma _ _ _ _ b
  have sp1 := split_up_shape tol p2 q1 s'.1 s'.2 q1s
  rw [west_eq (bc := bc), south_eq (bc := bc) (p := p2) hf.rows_eq hf.bc_eq,
    east_eq (bc := bc) (p := p2) hf.cols_eq hf.bc_eq, w2, w2, w2,
    w1 _ (hs' 0 (by decide)), w1 _ (hs' 1 (by decide)), w1 _ (hs' 2 (by decide)), hf.weight,
    hf.weight, hf.weight] at sp1
  obtain ⟨grs, gre⟩ := right_v sp1 vs
  set p3 := p2.setGamma s'.1 s'.2
    (transpose [2, 1, 0, 4, 3] (contract (split tol p2 q1 s'.1 s'.2 .up) 1 f.vt 1)) with hp3
  have w3 : ∀ b : Bond bc rows cols, weight p3 b = weight p1 b := fun b =>
    (weight_setGamma _ _ _ _ b).trans (w2 b)
  have g3 : ∀ t : Site rows cols, p3.gamma t.1 t.2 =
      if t = s' then transpose [2, 1, 0, 4, 3] (contract (split tol p2 q1 s'.1 s'.2 .up) 1 f.vt 1)
      else if t = s then
        transpose [2, 4, 0, 1, 3] (contract (split tol p1 q0 s.1 s.2 .down) 3 f.u 0)
      else p.gamma t.1 t.2 := fun t => by
    rw [hp3, gamma_setGamma, hp2, gamma_setGamma]
    rfl
  have hother : ∀ t, t ≠ s → t ≠ s' → ∀ k, leg bc t k ≠ leg bc s 1 := fun t h1 h2 k h => by
    rcases ends_v hb h with h | h
    · exact h1 h.1
    · exact h2 h.1
  refine ⟨⟨hf.rows_eq, hf.cols_eq, hf.bc_eq, fun t => ?_, fun b => ?_, fun b hbe => ?_⟩,
    fun σ hσ => ?_⟩
  · rw [g3]
    by_cases h : t = s'
    · subst h
      rw [if_pos rfl, grs, Function.update_of_ne (hs' 0 (by decide)),
        Function.update_of_ne (hs' 1 (by decide)), Function.update_of_ne (hs' 2 (by decide)), ← hb,
        Function.update_self]
    · rw [if_neg h]
      by_cases h' : t = s
      · subst h'
        rw [if_pos rfl, gls, Function.update_of_ne (hs 0 (by decide)),
          Function.update_of_ne (hs 2 (by decide)), Function.update_of_ne (hs 3 (by decide)),
          Function.update_self]
      · rw [if_neg h', hf.shape]
        simp only [Function.update_of_ne (hother t h' h _)]
  · rw [w3]
    by_cases h : b = leg bc s 1
    · subst h; rw [hb0, Function.update_self]
    · rw [w1 b h, Function.update_of_ne h, hf.weight]
  · have : b ≠ leg bc s 1 := fun h => not_external_v hb (h ▸ hbe)
    rw [Function.update_of_ne this, hf.external b hbe]
  · refine lift2 hne (b := leg bc s 1) (fun t k h => (ends_v hb h).imp (·.1) (·.1))
      (fun t h1 h2 => ?_) (fun b h => (w3 b).trans (w1 b h)) (fun b h => Function.update_of_ne h _ _)
      (G := fun i j x y => gate.elem [i, j, x, y]) fun γ hγ => ?_
    · rw [g3, if_neg h2, if_neg h1]
    · rw [Function.update_self]
      unfold pair
      rw [g3, g3, if_neg hne, if_pos rfl, if_pos rfl, w3, hb0]
      have cs : ∀ l x, coords (Function.update γ (leg bc s 1) l) s x =
          [γ (leg bc s 0), l, γ (leg bc s 2), γ (leg bc s 3), x] := fun l x => by
        simp only [coords, Function.update_self, Function.update_of_ne (hs 0 (by decide)),
          Function.update_of_ne (hs 2 (by decide)), Function.update_of_ne (hs 3 (by decide))]
      have cs' : ∀ l x, coords (Function.update γ (leg bc s 1) l) s' x =
          [γ (leg bc s' 0), γ (leg bc s' 1), γ (leg bc s' 2), l, x] := fun l x => by
        simp only [coords, Function.update_of_ne (hs' 0 (by decide)),
          Function.update_of_ne (hs' 1 (by decide)), Function.update_of_ne (hs' 2 (by decide)), ← hb,
          Function.update_self]
      simp only [cs, cs']
      have b0 := hγ _ (hs 0 (by decide))
      have b2 := hγ _ (hs 2 (by decide))
      have b3 := hγ _ (hs 3 (by decide))
      have b0' := hγ _ (hs' 0 (by decide))
      have b1' := hγ _ (hs' 1 (by decide))
      have b2' := hγ _ (hs' 2 (by decide))
      refine core2' (q0 := fun k => q0.elem [γ (leg bc s 2), γ (leg bc s 3), γ (leg bc s 0), k])
        (q1 := fun k => q1.elem [γ (leg bc s' 2), γ (leg bc s' 1), γ (leg bc s' 0), k])
        (r0 := fun k i b => r0.elem [k, i, b]) (r1 := fun k i b => r1.elem [k, i, b])
        (u := fun k x l => f.u.elem [k, x, l]) (vt := fun l k x => f.vt.elem [l, k, x])
        (lam := fun l => ((weight p (leg bc s 1)).val l : 𝕜)) (lam' := fun l => (f.s.val l : 𝕜))
        (g := fun i j => gate.elem [i, j, σ s, σ s'])
        (gl := fun i l => (p.gamma s.1 s.2).elem
          [γ (leg bc s 0), l, γ (leg bc s 2), γ (leg bc s 3), i])
        (gr := fun j l => (p.gamma s'.1 s'.2).elem
          [γ (leg bc s' 0), γ (leg bc s' 1), γ (leg bc s' 2), l, j])
        (gl' := fun i l =>
          (transpose [2, 4, 0, 1, 3] (contract (split tol p1 q0 s.1 s.2 .down) 3 f.u 0)).elem
          [γ (leg bc s 0), l, γ (leg bc s 2), γ (leg bc s 3), i])
        (gr' := fun j l =>
          (transpose [2, 1, 0, 4, 3] (contract (split tol p2 q1 s'.1 s'.2 .up) 1 f.vt 1)).elem
          [γ (leg bc s' 0), γ (leg bc s' 1), γ (leg bc s' 2), l, j])
        (x := σ s) (y := σ s') (K0 := K0) (K1 := K1)
        (above_inv3 (𝕜 := 𝕜) htol (hab 3 (by decide)) (hab 0 (by decide)) (hab 2 (by decide))
          (by rwa [hf.weight]) (by rwa [hf.weight]) (by rwa [hf.weight]))
        (above_inv3 (𝕜 := 𝕜) htol (hab' 2 (by decide)) (hab' 1 (by decide)) (hab' 0 (by decide))
          (by rwa [hf.weight]) (by rwa [hf.weight]) (by rwa [hf.weight]))
        (fun i hi b hbD => ?_) (fun j hj b hbD => ?_) (fun k hk k' hk' => ?_) (fun l hl => ?_)
        (fun l hl => ?_)
      · rw [h0 _ b2 _ b3 _ b0 i hi b hbD, eat3_down p s.1 s.2 (hf.shape s) ?_ ?_ ?_,
          west_eq (bc := bc), north_eq (bc := bc), east_eq (bc := bc) hf.cols_eq hf.bc_eq]
        · ring
        · rwa [east_eq (bc := bc) hf.cols_eq hf.bc_eq, hf.weight]
        · rwa [north_eq (bc := bc), hf.weight]
        · rwa [west_eq (bc := bc), hf.weight]
      · rw [h1 _ b2' _ b1' _ b0' j hj b (hb ▸ hbD), eat3_up p s'.1 s'.2 (hf.shape s') ?_ ?_ ?_,
          west_eq (bc := bc), south_eq (bc := bc) hf.rows_eq hf.bc_eq,
          east_eq (bc := bc) hf.cols_eq hf.bc_eq]
        · ring
        · rwa [east_eq (bc := bc) hf.cols_eq hf.bc_eq, hf.weight]
        · rwa [south_eq (bc := bc) hf.rows_eq hf.bc_eq, hf.weight]
        · rwa [west_eq (bc := bc), hf.weight]
      · rw [hsvd k hk (σ s) (hσ s) k' hk' (σ s') (hσ s')]
        rw [show (norm2 t4 : 𝕜) * (transpose [0, 2, 1, 3] (normalized t4)).elem
          ([k, σ s, k', σ s']) = t4.elem [k, k', σ s, σ s'] from norm2_mul t4 (x := [k, k', σ s, σ s'])
          (by rw [t4s]; exact .cons hk (valid3 hk' (hσ s) (hσ s')))]
        rw [t4e]
        refine Finset.sum_congr rfl fun i _ => Finset.sum_congr rfl fun j _ => ?_
        congr 1
        exact Finset.sum_congr rfl fun b hb => by rw [t2e _ _ _ (Finset.mem_range.1 hb)]
      · rw [gle]
        refine Finset.sum_congr rfl fun k _ => ?_
        rw [split_down tol p1 q0 s.1 s.2 q0s ?_ ?_ ?_, west_eq (bc := bc), north_eq (bc := bc),
          east_eq (bc := bc) (p := p1) hf.cols_eq hf.bc_eq, w1 _ (hs 0 (by decide)),
          w1 _ (hs 2 (by decide)), w1 _ (hs 3 (by decide))]
        · ring
        · rwa [east_eq (bc := bc) (p := p1) hf.cols_eq hf.bc_eq, w1 _ (hs 2 (by decide)), hf.weight]
        · rwa [north_eq (bc := bc), w1 _ (hs 3 (by decide)), hf.weight]
        · rwa [west_eq (bc := bc), w1 _ (hs 0 (by decide)), hf.weight]
      · rw [gre]
        refine Finset.sum_congr rfl fun k _ => ?_
        rw [split_up tol p2 q1 s'.1 s'.2 q1s ?_ ?_ ?_, west_eq (bc := bc),
          south_eq (bc := bc) (p := p2) hf.rows_eq hf.bc_eq,
          east_eq (bc := bc) (p := p2) hf.cols_eq hf.bc_eq, w2, w2, w2, w1 _ (hs' 0 (by decide)),
          w1 _ (hs' 1 (by decide)), w1 _ (hs' 2 (by decide))]
        · ring
        · rwa [east_eq (bc := bc) (p := p2) hf.cols_eq hf.bc_eq, w2, w1 _ (hs' 2 (by decide)),
            hf.weight]
        · rwa [south_eq (bc := bc) (p := p2) hf.rows_eq hf.bc_eq, w2, w1 _ (hs' 1 (by decide)),
            hf.weight]
        · rwa [west_eq (bc := bc), w2, w1 _ (hs' 0 (by decide)), hf.weight]

end QLPeps.Peps
