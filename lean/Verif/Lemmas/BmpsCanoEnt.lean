import Verif.Lemmas.BmpsCanoRun

/-! # Schmidt decompositions of a boundary MPS in canonical form -/

namespace QLPeps.BmpsCano

open QLPeps.Bmps QLPeps.Box QLPeps.BmpsCano.Spec
open QLPeps.BmpsVar (amp_eq isMps_iff sumCoors_box)
open QLPeps.Peps (Tn Lib contractN transpose norm2 sumCoors)
open QLPeps.BmpsVar.Spec (Factorizations Keeps amp normSq IsMps overlap)

noncomputable section

variable {𝕜 : Type*} [RCLike 𝕜]

/-! ## chains with an open right leg -/

/-- the first tensors of a chain; `B` is the dimension of the right leg -/
def PShp : List (Tn 𝕜) → ℕ → List ℕ → ℕ → Prop
  | [], a, ds, B => a = B ∧ ds = []
  | e :: es, a, ds, B => ∃ d b ds', ds = d :: ds' ∧ e.shape = [a, d, b] ∧ PShp es b ds' B

/-- their amplitude -/
def lv : List (Tn 𝕜) → List ℕ → ℕ → ℕ → 𝕜
  | e :: es, x :: xs, a, l => ∑ b ∈ Finset.range (e.shape.getD 2 0), e.elem [a, x, b] * lv es xs b l
  | _, _, a, l => if a = l then 1 else 0

theorem shp_split (rest : List (Tn 𝕜)) (pre : List (Tn 𝕜)) : ∀ (A : ℕ) (ds : List ℕ), Shp (pre ++ rest) A ds →
    ∃ B, PShp pre A (ds.take pre.length) B ∧ Shp rest B (ds.drop pre.length) := by
  induction pre with
  | nil => exact fun A ds h => ⟨A, ⟨rfl, rfl⟩, h⟩
  | cons e pre ih =>
    rintro A ds ⟨d, b, ds', rfl, h1, h2⟩
    obtain ⟨B, i1, i2⟩ := ih b ds' h2
    exact ⟨B, ⟨d, b, _, rfl, h1, i1⟩, i2⟩

theorem mv_split {rest : List (Tn 𝕜)} {B : ℕ} (pre : List (Tn 𝕜)) : ∀ (A : ℕ) (ds1 : List ℕ), PShp pre A ds1 B →
    ∀ x ∈ box ds1, ∀ y, ∀ a < A, mv (pre ++ rest) (x ++ y) a = ∑ l ∈ Finset.range B, lv pre x a l * mv rest y l := by
  induction pre with
  | nil =>
    rintro A ds1 ⟨rfl, rfl⟩ x hx y a ha
    obtain rfl : x = [] := by simpa [mem_box] using hx
    simp only [List.nil_append, lv, ite_mul, one_mul, zero_mul, Finset.sum_ite_eq, Finset.mem_range, ha, if_true]
  | cons e pre ih =>
    rintro A ds1 ⟨d, b, ds', rfl, h1, h2⟩ x hx y a ha
    obtain ⟨x, xs, rfl, hx, hxs⟩ := mem_box_cons.1 hx
    simp only [List.cons_append, mv, lv, h1, List.getD_cons_succ, List.getD_cons_zero, Finset.sum_mul]
    rw [Finset.sum_comm]
    refine Finset.sum_congr rfl fun m hm => ?_
    rw [ih b ds' h2 xs hxs y m (Finset.mem_range.1 hm), Finset.mul_sum]
    exact Finset.sum_congr rfl fun _ _ => by ring

theorem lv_orth {B : ℕ} (pre : List (Tn 𝕜)) : ∀ (A : ℕ) (ds1 : List ℕ), PShp pre A ds1 B → (∀ e ∈ pre, LeftIso e) →
    ∀ l < B, ∀ l' < B, ∑ a ∈ Finset.range A, ∑ x ∈ box ds1, (starRingEnd 𝕜) (lv pre x a l) * lv pre x a l' =
      if l = l' then 1 else 0 := by
  induction pre with
  | nil =>
    rintro A ds1 ⟨rfl, rfl⟩ _ l hl l' hl'
    simp only [sum_box_nil, lv]
    rw [Finset.sum_eq_single l]
    · simp
    · intro a _ h; simp [h]
    · intro h; exact absurd (Finset.mem_range.2 hl) h
  | cons e pre ih =>
    rintro A ds1 ⟨d, b, ds', rfl, h1, h2⟩ hi l hl l' hl'
    have ih := ih b ds' h2 (fun e he => hi e (List.mem_cons_of_mem _ he)) l hl l' hl'
    obtain ⟨A', X', B', g1, g2⟩ := hi e (by simp)
    rw [h1] at g1
    obtain ⟨rfl, rfl, rfl⟩ : A = A' ∧ d = X' ∧ b = B' := by simpa using g1
    rw [← ih]
    simp only [sum_box_cons, lv, h1, List.getD_cons_succ, List.getD_cons_zero, map_sum, map_mul, Finset.sum_mul_sum]
    calc _ = ∑ m ∈ Finset.range b, ∑ m' ∈ Finset.range b, ∑ xs ∈ box ds', (∑ a ∈ Finset.range A, ∑ x ∈ Finset.range d,
          (starRingEnd 𝕜) (e.elem [a, x, m]) * e.elem [a, x, m']) * ((starRingEnd 𝕜) (lv pre xs m l) * lv pre xs m' l') := by
          simp only [Finset.sum_mul]
          rw [Finset.sum_congr rfl fun a _ => Finset.sum_congr rfl fun x _ => Finset.sum_comm]
          rw [Finset.sum_congr rfl fun a _ => Finset.sum_comm, Finset.sum_comm]
          refine Finset.sum_congr rfl fun m _ => ?_
          rw [Finset.sum_congr rfl fun a _ => Finset.sum_congr rfl fun x _ => Finset.sum_comm]
          rw [Finset.sum_congr rfl fun a _ => Finset.sum_comm, Finset.sum_comm]
          refine Finset.sum_congr rfl fun m' _ => ?_
          rw [Finset.sum_congr rfl fun a _ => Finset.sum_comm, Finset.sum_comm]
          exact Finset.sum_congr rfl fun xs _ => Finset.sum_congr rfl fun a _ => Finset.sum_congr rfl fun x _ => by ring
      _ = _ := by
          refine Finset.sum_congr rfl fun m hm => ?_
          rw [Finset.sum_eq_single m]
          · rw [g2 m (Finset.mem_range.1 hm) m (Finset.mem_range.1 hm), if_pos rfl]
            simp
          · intro m' hm' hne
            rw [g2 m (Finset.mem_range.1 hm) m' (Finset.mem_range.1 hm'), if_neg (Ne.symm hne)]
            simp
          · intro h; exact absurd hm h

theorem mv_orth (rest : List (Tn 𝕜)) : ∀ (A : ℕ) (ds : List ℕ), Shp rest A ds → (∀ e ∈ rest, RightIso e) →
    ∀ a < A, ∀ a' < A, ∑ y ∈ box ds, mv rest y a * (starRingEnd 𝕜) (mv rest y a') = if a = a' then 1 else 0 := by
  induction rest with
  | nil =>
    rintro A ds ⟨rfl, rfl⟩ _ a ha a' ha'
    simp only [sum_box_nil, mv, map_one, mul_one]
    rw [if_pos (by omega)]
  | cons e rest ih =>
    rintro A ds ⟨d, b, ds', rfl, h1, h2⟩ hi a ha a' ha'
    have ih := ih b ds' h2 (fun e he => hi e (List.mem_cons_of_mem _ he))
    obtain ⟨A', X', B', g1, g2⟩ := hi e (by simp)
    rw [h1] at g1
    obtain ⟨rfl, rfl, rfl⟩ : A = A' ∧ d = X' ∧ b = B' := by simpa using g1
    rw [← g2 a ha a' ha']
    simp only [sum_box_cons, mv, h1, List.getD_cons_succ, List.getD_cons_zero, map_sum, map_mul, Finset.sum_mul_sum]
    refine Finset.sum_congr rfl fun x _ => ?_
    rw [Finset.sum_comm]
    refine Finset.sum_congr rfl fun m hm => ?_
    rw [Finset.sum_comm, Finset.sum_eq_single m]
    · have := ih m (Finset.mem_range.1 hm) m (Finset.mem_range.1 hm)
      rw [if_pos rfl] at this
      rw [← mul_one (_ * (starRingEnd 𝕜) (e.elem [a', x, m])), ← this, Finset.mul_sum]
      exact Finset.sum_congr rfl fun _ _ => by ring
    · intro m' hm' hne
      have := ih m (Finset.mem_range.1 hm) m' (Finset.mem_range.1 hm')
      rw [if_neg (Ne.symm hne)] at this
      rw [← mul_zero (e.elem [a, x, m] * (starRingEnd 𝕜) (e.elem [a', x, m'])), ← this, Finset.mul_sum]
      exact Finset.sum_congr rfl fun _ _ => by ring
    · intro h; exact absurd hm h

/-- the spectrum of the reduced density matrix left of the center are the squares of its singular values -/
theorem spectrum_at {lib : Lib 𝕜} (hf : Factorizations lib) {pre post : List (Tn 𝕜)} {b : Tn 𝕜} (hk : Keeps lib b 1) {ds : List ℕ}
    (hs : Shp (pre ++ b :: post) 1 ds) (hl : ∀ e ∈ pre, LeftIso e) (hr : ∀ e ∈ post, RightIso e) :
    Spectrum (ds.take pre.length) (reduced (ds.drop pre.length) fun xs => mv (pre ++ b :: post) xs 0)
      (lib.svd b 1).s.dim fun k => (lib.svd b 1).s.val k * (lib.svd b 1).s.val k := by
  obtain ⟨L, p1, X, R, ds2, h0, h1, h2⟩ := shp_split _ pre 1 ds hs
  obtain ⟨s1, s2⟩ := hf.shape b 1
  have huu := hf.uu b 1
  rw [h1] at s1 s2 huu
  rw [Keeps, h1] at hk
  simp only [List.take_succ_cons, List.take_zero, List.drop_succ_cons, List.drop_zero, List.cons_append, List.nil_append] at s1 s2
  set d := lib.svd b 1 with hd
  have ho := lv_orth pre 1 _ p1 hl
  simp only [Finset.range_one, Finset.sum_singleton] at ho
  have hv := mv_orth (d.vt :: post) d.s.dim _ ⟨X, R, ds2, rfl, s2, h2⟩
    (fun e he => (List.mem_cons.1 he).elim (fun h => h ▸ svd_rightIso hf h1) (hr e))
  have hu : ∀ m < d.s.dim, ∀ m' < d.s.dim, ∑ l ∈ Finset.range L, (starRingEnd 𝕜) (d.u.elem [l, m]) * d.u.elem [l, m'] =
      if m = m' then 1 else 0 := by
    intro m hm m' hm'
    have := huu m hm m' hm'
    rw [sumCoors_box] at this
    simpa only [List.take_succ_cons, List.take_zero, sum_box_cons, sum_box_nil, List.cons_append, List.nil_append] using this
  have hb : ∀ y ∈ box (X :: ds2), ∀ l < L, mv (b :: post) y l =
      ∑ m ∈ Finset.range d.s.dim, d.u.elem [l, m] * (d.s.val m : 𝕜) * mv (d.vt :: post) y m := by
    intro y hy l hl
    obtain ⟨x, ys, rfl, hx, hys⟩ := mem_box_cons.1 hy
    simp only [mv, h1, s2, List.getD_cons_succ, List.getD_cons_zero, Finset.mul_sum]
    rw [Finset.sum_comm]
    refine Finset.sum_congr rfl fun r hr => ?_
    have := hk [l] [x, r] (.cons hl .nil) (.cons hx (.cons (Finset.mem_range.1 hr) .nil))
    simp only [List.cons_append, List.nil_append] at this
    rw [← this, Finset.sum_mul]
    exact Finset.sum_congr rfl fun _ _ => by ring
  refine ⟨fun k x => ∑ l ∈ Finset.range L, lv pre x 0 l * d.u.elem [l, k], fun k hk' k' hk'' => ?_, fun x x' hx hx' => ?_⟩
  · rw [overlap, sumCoors_box, ← hu k hk' k' hk'']
    simp only [map_sum, map_mul, Finset.sum_mul_sum]
    rw [Finset.sum_comm]
    refine Finset.sum_congr rfl fun l hl => ?_
    rw [Finset.sum_comm, Finset.sum_eq_single l]
    · have := ho l (Finset.mem_range.1 hl) l (Finset.mem_range.1 hl)
      rw [if_pos rfl] at this
      rw [← one_mul ((starRingEnd 𝕜) (d.u.elem [l, k]) * _), ← this, Finset.sum_mul]
      exact Finset.sum_congr rfl fun _ _ => by ring
    · intro l' hl' hne
      have := ho l (Finset.mem_range.1 hl) l' (Finset.mem_range.1 hl')
      rw [if_neg (Ne.symm hne)] at this
      rw [← zero_mul ((starRingEnd 𝕜) (d.u.elem [l, k]) * d.u.elem [l', k']), ← this, Finset.sum_mul]
      exact Finset.sum_congr rfl fun _ _ => by ring
    · intro h; exact absurd hl h
  · have key : ∀ z, List.Forall₂ (· < ·) z (ds.take pre.length) → ∀ y ∈ box (X :: ds2), mv (pre ++ b :: post) (z ++ y) 0 =
        ∑ m ∈ Finset.range d.s.dim, (∑ l ∈ Finset.range L, lv pre z 0 l * d.u.elem [l, m]) * (d.s.val m : 𝕜) * mv (d.vt :: post) y m := by
      intro z hz y hy
      rw [mv_split pre 1 _ p1 z (mem_box.2 hz) y 0 (by omega)]
      simp only [Finset.sum_mul]
      rw [Finset.sum_comm]
      refine Finset.sum_congr rfl fun l hl => ?_
      rw [hb y hy l (Finset.mem_range.1 hl), Finset.mul_sum]
      exact Finset.sum_congr rfl fun _ _ => by ring
    rw [reduced, sumCoors_box, h0, Finset.sum_congr rfl fun y hy => by rw [key x hx y hy, key x' hx' y hy]]
    generalize hV : (fun (z : List ℕ) (m : ℕ) => ∑ l ∈ Finset.range L, lv pre z 0 l * d.u.elem [l, m]) = V
    have hV' : ∀ z m, ∑ l ∈ Finset.range L, lv pre z 0 l * d.u.elem [l, m] = V z m := fun z m => by rw [← hV]
    simp only [hV', map_sum, map_mul, Finset.sum_mul_sum, RCLike.conj_ofReal]
    rw [Finset.sum_comm]
    refine Finset.sum_congr rfl fun m hm => ?_
    rw [Finset.sum_comm, Finset.sum_eq_single m]
    · have := hv m (Finset.mem_range.1 hm) m (Finset.mem_range.1 hm)
      rw [if_pos rfl] at this
      rw [← mul_one (_ * (starRingEnd 𝕜) (V x' m)), ← this, Finset.mul_sum]
      exact Finset.sum_congr rfl fun _ _ => by push_cast; ring
    · intro m' hm' hne
      have := hv m (Finset.mem_range.1 hm) m' (Finset.mem_range.1 hm')
      rw [if_neg (Ne.symm hne)] at this
      rw [← mul_zero (V x m * (d.s.val m : 𝕜) * ((starRingEnd 𝕜) (V x' m') * (d.s.val m' : 𝕜))), ← this, Finset.mul_sum]
      exact Finset.sum_congr rfl fun _ _ => by ring
    · intro h; exact absurd hm h

/-- the trace of a power of the matrix -/
theorem spectrum_power {ds : List ℕ} {ρ : List ℕ → List ℕ → 𝕜} {D : ℕ} {p : ℕ → ℝ} (h : Spectrum ds ρ D p) (n : ℕ) :
    Spec.trace ds (power ds ρ (n + 1)) = ((∑ k ∈ Finset.range D, p k ^ (n + 1) : ℝ) : 𝕜) := by
  obtain ⟨v, h1, h2⟩ := h
  have hp : ∀ n, ∀ x ∈ box ds, ∀ x' ∈ box ds, power ds ρ (n + 1) x x' =
      ∑ k ∈ Finset.range D, ((p k : 𝕜) ^ (n + 1)) * v k x * (starRingEnd 𝕜) (v k x') := by
    intro n
    induction n with
    | zero =>
      intro x hx x' hx'
      rw [power, sumCoors_box]
      simp only [power, ite_mul, one_mul, zero_mul, Finset.sum_ite_eq, hx, if_true, zero_add, pow_one]
      exact h2 x x' (mem_box.1 hx) (mem_box.1 hx')
    | succ n ih =>
      intro x hx x' hx'
      rw [power, sumCoors_box, Finset.sum_congr rfl fun z hz => by rw [ih x hx z hz, h2 z x' (mem_box.1 hz) (mem_box.1 hx')]]
      simp only [Finset.sum_mul_sum]
      rw [Finset.sum_comm]
      refine Finset.sum_congr rfl fun k hk => ?_
      rw [Finset.sum_comm, Finset.sum_eq_single k]
      · have := h1 k (Finset.mem_range.1 hk) k (Finset.mem_range.1 hk)
        rw [if_pos rfl, overlap, sumCoors_box] at this
        rw [← mul_one (_ * (starRingEnd 𝕜) (v k x')), ← this, Finset.mul_sum]
        exact Finset.sum_congr rfl fun _ _ => by ring
      · intro k' hk' hne
        have := h1 k (Finset.mem_range.1 hk) k' (Finset.mem_range.1 hk')
        rw [if_neg (Ne.symm hne), overlap, sumCoors_box] at this
        rw [← mul_zero ((p k : 𝕜) ^ (n + 1) * v k x * ((p k' : 𝕜) * (starRingEnd 𝕜) (v k' x'))), ← this, Finset.mul_sum]
        exact Finset.sum_congr rfl fun _ _ => by ring
      · intro h; exact absurd hk h
  rw [Spec.trace, sumCoors_box, Finset.sum_congr rfl fun x hx => hp n x hx x hx, Finset.sum_comm]
  push_cast
  refine Finset.sum_congr rfl fun k hk => ?_
  have := h1 k (Finset.mem_range.1 hk) k (Finset.mem_range.1 hk)
  rw [if_pos rfl, overlap, sumCoors_box] at this
  calc _ = (p k : 𝕜) ^ (n + 1) * ∑ x ∈ box ds, (starRingEnd 𝕜) (v k x) * v k x := by
        rw [Finset.mul_sum]
        exact Finset.sum_congr rfl fun _ _ => by ring
    _ = _ := by rw [this, mul_one]

/-! ## the entropies -/

variable {fac : Facs 𝕜} {ds : List ℕ}

theorem mem_pre {pre : List (Tn 𝕜)} {rest : List (Tn 𝕜)} {c : ℕ} (hp : pre.length = c) (hc : Canonical c (pre ++ rest)) :
    ∀ e ∈ pre, LeftIso e := by
  intro e he
  obtain ⟨i, hi, rfl⟩ := List.getElem_of_mem he
  have := hc.1 i (by omega)
  rwa [List.getD_eq_getElem _ _ (by simp; omega), List.getElem_append_left hi] at this

theorem mem_post {pre : List (Tn 𝕜)} {b : Tn 𝕜} {post : List (Tn 𝕜)} {c : ℕ} (hp : pre.length = c) (hc : Canonical c (pre ++ b :: post)) :
    ∀ e ∈ post, RightIso e := by
  intro e he
  obtain ⟨i, hi, rfl⟩ := List.getElem_of_mem he
  have := hc.2 (c + 1 + i) (by omega) (by simp; omega)
  rw [List.getD_eq_getElem _ _ (by simp; omega), List.getElem_append_right (by omega)] at this
  simpa [show c + 1 + i - pre.length = i + 1 by omega] using this

theorem split_at {es : List (Tn 𝕜)} {i : ℕ} (h : i < es.length) :
    es = es.take i ++ es.getD i nil :: es.drop (i + 1) ∧ (es.take i).length = i := by
  refine ⟨?_, by simp; omega⟩
  rw [List.getD_eq_getElem _ _ h, ← List.drop_eq_getElem_cons, List.take_append_drop]

theorem canonical_spectrum (hg : Good fac) {es : List (Tn 𝕜)} (hs : Shp es 1 ds) {c : ℕ} (hc : c < es.length) (h : Canonical c es) :
    Spectrum (ds.take c) (reduced (ds.drop c) fun xs => mv es xs 0)
      (fac.full.svd (es.getD c nil) 1).s.dim fun k => (fac.full.svd (es.getD c nil) 1).s.val k * (fac.full.svd (es.getD c nil) 1).s.val k := by
  obtain ⟨h1, h2⟩ := split_at hc
  generalize hb : es.getD c nil = b at *
  generalize hp : es.take c = pre at *
  generalize es.drop (c + 1) = post at *
  subst h1
  rw [← h2]
  exact spectrum_at hg.full (hg.keeps _) hs (mem_pre h2 h) (mem_post h2 h)

theorem reduced_congr {c : ℕ} {φ ψ : List ℕ → 𝕜} (h : ∀ xs ∈ box ds, φ xs = ψ xs) {D : ℕ} {p : ℕ → ℝ}
    (hp : Spectrum (ds.take c) (reduced (ds.drop c) φ) D p) : Spectrum (ds.take c) (reduced (ds.drop c) ψ) D p := by
  obtain ⟨v, h1, h2⟩ := hp
  refine ⟨v, h1, fun x x' hx hx' => ?_⟩
  rw [← h2 x x' hx hx', reduced, reduced, sumCoors_box, sumCoors_box]
  refine Finset.sum_congr rfl fun y hy => ?_
  have e : ∀ z, List.Forall₂ (· < ·) z (ds.take c) → z ++ y ∈ box ds := fun z hz => by
    have := BmpsVar.box_append (mem_box.2 hz) hy
    rwa [List.take_append_drop] at this
  rw [h _ (e x hx), h _ (e x' hx')]

/-- the loop over the bonds -/
theorem entropies_spec (hg : Good fac) (n k : ℕ) : ∀ o : Obj 𝕜, Shp o.tens 1 ds → o.cano.length = o.tens.length →
    k < o.tens.length → Canonical k o.tens → ∃ o' r, entropies fac n k o = some (o', r) ∧ Eqv ds o o' ∧ r.length = k ∧
      Canonical 0 o'.tens ∧ (k = 0 ∧ o' = o ∨ o'.cano.getD 0 .none = .none) ∧
      (∀ j, 0 < j → j ≤ k → o'.cano.getD j .none = .right) ∧ (∀ j, k < j → o'.cano.getD j .none = o.cano.getD j .none) ∧
      ∀ i < k, ∃ s : Peps.Diag, r.getD i none = entropyOf n s ∧
        Spectrum (ds.take (i + 1)) (reduced (ds.drop (i + 1)) fun xs => mv o.tens xs 0) s.dim fun m => s.val m * s.val m := by
  induction k with
  | zero => exact fun o hs hc _ h => ⟨o, [], rfl, eqv_refl hs hc, rfl, h, .inl ⟨rfl, rfl⟩, fun j _ _ => by omega, fun _ _ => rfl, fun i h => by omega⟩
  | succ k ih =>
    intro o hs hc hk h
    obtain ⟨o1, a1, a2, a3⟩ := svdTen_spec hg hs hc hk
    have hl := a2.len
    obtain ⟨o2, r, b1, b2, b3, b4, b5, b6, b7, b8⟩ := ih o1 a2.shp (a2.clen.trans hl.symm) (by omega) (by
      refine ⟨fun i hi => ?_, fun i h1 h2 => ?_⟩
      · rw [a2.tens i (by omega) (by omega)]
        exact h.1 i (by omega)
      · rcases Nat.eq_or_lt_of_le (show k + 1 ≤ i by omega) with rfl | h3
        · exact a3
        · rw [a2.tens i (by omega) (by omega)]
          exact h.2 i (by omega) (by omega))
    refine ⟨o2, r ++ [entropyOf n (fac.full.svd (o.tens.getD (k + 1) nil) 1).s],
      by rw [entropies, a1, Option.bind_some, b1, Option.map_some], a2.toEqv.trans b2, by simp [b3], b4, .inr ?_, ?_, ?_, ?_⟩
    · rcases b5 with ⟨rfl, rfl⟩ | h
      · rw [a2.marks, if_pos rfl]
      · exact h
    · intro j h1 h2
      by_cases h3 : j ≤ k
      · exact b6 j h1 h3
      · rw [b7 j (by omega), a2.marks, if_neg (by omega), if_pos (by omega)]
    · intro j hj
      rw [b7 j (by omega), a2.marks, if_neg (by omega), if_neg (by omega)]
    · intro i hi
      by_cases h3 : i < k
      · obtain ⟨s, c1, c2⟩ := b8 i h3
        refine ⟨s, ?_, reduced_congr (fun xs hxs => a2.val xs hxs) c2⟩
        rw [List.getD_append _ _ _ _ (by omega), c1]
      · obtain rfl : i = k := by omega
        refine ⟨_, ?_, canonical_spectrum hg hs hk h⟩
        rw [List.getD_append_right _ _ _ _ (by omega), b3]
        simp

/-! ## normalizing the last tensor -/

theorem mv_scale_last (t t' : Tn 𝕜) (z : 𝕜) (hsh : t'.shape = t.shape) (he : ∀ x, t'.elem x = t.elem x / z) (pre : List (Tn 𝕜)) :
    ∀ (A : ℕ) (ds : List ℕ), Shp (pre ++ [t]) A ds → Shp (pre ++ [t']) A ds ∧
      ∀ xs ∈ box ds, ∀ a, mv (pre ++ [t']) xs a = mv (pre ++ [t]) xs a / z := by
  induction pre with
  | nil =>
    rintro A ds ⟨d, b, ds', rfl, h1, h2⟩
    refine ⟨⟨d, b, ds', rfl, by rw [hsh, h1], h2⟩, fun xs hxs a => ?_⟩
    obtain ⟨x, xs, rfl, hx, hxs⟩ := mem_box_cons.1 hxs
    simp only [List.nil_append, mv, hsh, he, mul_one, Finset.sum_div]
  | cons e pre ih =>
    rintro A ds ⟨d, b, ds', rfl, h1, h2⟩
    obtain ⟨i1, i2⟩ := ih b ds' h2
    refine ⟨⟨d, b, ds', rfl, h1, i1⟩, fun xs hxs a => ?_⟩
    obtain ⟨x, xs, rfl, hx, hxs⟩ := mem_box_cons.1 hxs
    simp only [List.cons_append, mv, Finset.sum_div]
    exact Finset.sum_congr rfl fun m _ => by rw [i2 xs hxs m, mul_div_assoc]

/-- the norm of the state is that of the last tensor if the others are isometric -/
theorem norm_last {pre : List (Tn 𝕜)} {t : Tn 𝕜} (hs : Shp (pre ++ [t]) 1 ds) (hl : ∀ e ∈ pre, LeftIso e) :
    norm2 t = Real.sqrt (normSq ds fun xs => amp (pre ++ [t]) xs 0) := by
  obtain ⟨L, p1, X, R, ds2, h0, h1, h2⟩ := shp_split _ pre 1 ds hs
  obtain ⟨rfl, rfl⟩ := h2
  rw [norm2]
  congr 1
  rw [normSq, sumCoors_box, sumCoors_box, h1, ← List.take_append_drop pre.length ds, h0]
  have ho := lv_orth pre 1 _ p1 hl
  simp only [Finset.range_one, Finset.sum_singleton] at ho
  have hsum : ∀ (as bs : List ℕ) (f : List ℕ → ℝ), ∑ z ∈ box (as ++ bs), f z = ∑ x ∈ box as, ∑ y ∈ box bs, f (x ++ y) := by
    intro as
    induction as with
    | nil => intro bs f; simp [sum_box_nil]
    | cons a as ih => intro bs f; simp [sum_box_cons, ih]
  rw [hsum]
  have key : ∀ y ∈ Finset.range X, ∑ x ∈ box (ds.take pre.length), ‖amp (pre ++ [t]) (x ++ [y]) 0‖ ^ 2 =
      ∑ l ∈ Finset.range L, ‖t.elem [l, y, 0]‖ ^ 2 := by
    intro y hy
    apply RCLike.ofReal_injective (K := 𝕜)
    push_cast
    calc _ = ∑ x ∈ box (ds.take pre.length), (starRingEnd 𝕜) (∑ l ∈ Finset.range L, lv pre x 0 l * t.elem [l, y, 0]) *
          ∑ l ∈ Finset.range L, lv pre x 0 l * t.elem [l, y, 0] := by
          refine Finset.sum_congr rfl fun x hx => ?_
          rw [RCLike.conj_mul, amp_eq, mv_split pre 1 _ p1 x hx [y] 0 (by omega)]
          simp [mv, h1]
      _ = ∑ l ∈ Finset.range L, ∑ l' ∈ Finset.range L, (∑ x ∈ box (ds.take pre.length), (starRingEnd 𝕜) (lv pre x 0 l) * lv pre x 0 l') *
          ((starRingEnd 𝕜) (t.elem [l, y, 0]) * t.elem [l', y, 0]) := by
          simp only [map_sum, map_mul, Finset.sum_mul_sum]
          rw [Finset.sum_comm]
          refine Finset.sum_congr rfl fun l _ => ?_
          rw [Finset.sum_comm]
          refine Finset.sum_congr rfl fun l' _ => ?_
          rw [Finset.sum_mul]
          exact Finset.sum_congr rfl fun x _ => by ring
      _ = _ := by
          refine Finset.sum_congr rfl fun l hl => ?_
          rw [Finset.sum_eq_single l]
          · rw [ho l (Finset.mem_range.1 hl) l (Finset.mem_range.1 hl), if_pos rfl, one_mul, RCLike.conj_mul]
          · intro l' hl' hne
            rw [ho l (Finset.mem_range.1 hl) l' (Finset.mem_range.1 hl'), if_neg (Ne.symm hne), zero_mul]
          · intro h; exact absurd hl h
  simp only [sum_box_cons, sum_box_nil, Finset.range_one, Finset.sum_singleton]
  rw [Finset.sum_comm, Finset.sum_comm (s := box _)]
  exact Finset.sum_congr rfl fun y hy => (key y hy).symm

end

end QLPeps.BmpsCano
