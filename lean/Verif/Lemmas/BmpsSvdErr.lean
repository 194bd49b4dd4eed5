import Verif.Lemmas.BmpsVarBest
import Verif.Spec.BmpsSvdErr

/-! # The error of the compression with singular value decompositions -/

namespace QLPeps.BmpsVar

open QLPeps.Contractor QLPeps.Sweep QLPeps.Bmps QLPeps.Box
open QLPeps.Peps (Tn Lib rot contract contractN transpose dag sumCoors)
open QLPeps.BmpsVar.Spec (Factorizations Keeps IsMps IsMpo amp rowAmp product overlap normSq order inOrder Discards AtMost)

noncomputable section

variable {𝕜 : Type*} [RCLike 𝕜]

/-- a tensor which is an isometry to its right leg -/
def LIso (g : Tn 𝕜) : Prop :=
  ∃ Q Y C, g.shape = [Q, Y, C] ∧ ∀ c < C, ∀ c' < C, ∑ q ∈ Finset.range Q, ∑ y ∈ Finset.range Y,
    (starRingEnd 𝕜) (g.elem [q, y, c]) * g.elem [q, y, c'] = if c = c' then 1 else 0

theorem sq_eq (z : 𝕜) : ((‖z‖ ^ 2 : ℝ) : 𝕜) = (starRingEnd 𝕜) z * z := by
  rw [RCLike.conj_mul]; push_cast; rfl

/-- an isometry keeps the norm -/
theorem iso_norm {α : Type*} {S : Finset α} {C : ℕ} {F : α → ℕ → 𝕜}
    (h : ∀ c < C, ∀ c' < C, ∑ x ∈ S, (starRingEnd 𝕜) (F x c) * F x c' = if c = c' then 1 else 0) (A : ℕ → 𝕜) :
    ∑ x ∈ S, ‖∑ c ∈ Finset.range C, F x c * A c‖ ^ 2 = ∑ c ∈ Finset.range C, ‖A c‖ ^ 2 := by
  have := parseval (S := S) (C := C) (F := fun c x => (starRingEnd 𝕜) (F x c)) (fun c hc c' hc' => by
    simpa using h c hc c' hc') (fun c => (starRingEnd 𝕜) (A c)) (fun c => (starRingEnd 𝕜) (A c))
  apply RCLike.ofReal_injective (K := 𝕜)
  simp only [RCLike.ofReal_sum, sq_eq]
  simp only [RCLike.conj_conj] at this
  rw [← this]
  refine Finset.sum_congr rfl fun x _ => ?_
  simp only [map_sum, map_mul, RCLike.conj_conj, mul_comm]

theorem iso_norm2 {g : Tn 𝕜} {Q Y C : ℕ} (hs : g.shape = [Q, Y, C]) (h : LIso g) (A : ℕ → 𝕜) :
    ∑ q ∈ Finset.range Q, ∑ y ∈ Finset.range Y, ‖∑ c ∈ Finset.range C, g.elem [q, y, c] * A c‖ ^ 2 =
      ∑ c ∈ Finset.range C, ‖A c‖ ^ 2 := by
  obtain ⟨Q', Y', C', hs', h⟩ := h
  obtain ⟨rfl, rfl, rfl⟩ : Q = Q' ∧ Y = Y' ∧ C = C' := by simpa using hs.symm.trans hs'
  have := iso_norm (S := Finset.range Q ×ˢ Finset.range Y) (C := C) (F := fun x c => g.elem [x.1, x.2, c])
    (fun c hc c' hc' => by rw [Finset.sum_product]; exact h c hc c' hc') A
  rw [Finset.sum_product] at this
  exact this

theorem LIso.norm {g : Tn 𝕜} (h : LIso g) {Q Y C : ℕ} (hs : g.shape = [Q, Y, C]) {α : Type*} (S : Finset α) (A : α → ℕ → 𝕜) :
    ∑ q ∈ Finset.range Q, ∑ y ∈ Finset.range Y, ∑ z ∈ S, ‖∑ c ∈ Finset.range C, g.elem [q, y, c] * A z c‖ ^ 2 =
      ∑ c ∈ Finset.range C, ∑ z ∈ S, ‖A z c‖ ^ 2 := by
  rw [pull2]
  rw [Finset.sum_comm (s := Finset.range C)]
  exact Finset.sum_congr rfl fun z _ => iso_norm2 hs h (A z)

/-- what the compression of a chain of tensors gives -/
theorem cano_trunc {lib : Lib 𝕜} (hf : Factorizations lib) (es : List (Tn 𝕜)) :
    ∀ (A : ℕ) (ds : List ℕ), es ≠ [] → Shp es A ds → ∃ f fs Y B ds', canoLoop lib es = f :: fs ∧ ds = Y :: ds' ∧
      f.shape = [A, Y, B] ∧ Shp fs B ds' ∧
      (∀ c < B, ∀ c' < B, ∑ ys ∈ box ds', mv fs ys c * (starRingEnd 𝕜) (mv fs ys c') = if c = c' then 1 else 0) ∧
      (∀ a < A, ∀ x < Y, ∀ c < B, f.elem [a, x, c] =
        ∑ ys ∈ box ds', (starRingEnd 𝕜) (mv fs ys c) * mv es (x :: ys) a) ∧
      (∀ D, AtMost lib D → ∀ g ∈ fs, g.shape.getD 0 0 ≤ D) ∧
      ∀ ε ≤ 1, Discards lib ε → (∀ e ∈ es.dropLast, LIso e) →
        (1 - ε) ^ (es.length - 1) * ∑ a ∈ Finset.range A, ∑ ys ∈ box ds, ‖mv es ys a‖ ^ 2 ≤
          ∑ a ∈ Finset.range A, ∑ x ∈ Finset.range Y, ∑ c ∈ Finset.range B, ‖f.elem [a, x, c]‖ ^ 2 := by
  induction es with
  | nil => intro A ds h; exact absurd rfl h
  | cons e es ih =>
    cases es with
    | nil =>
      intro A ds _ h
      obtain ⟨Y, L, ds', rfl, h1, rfl, rfl⟩ := h
      refine ⟨e, [], Y, 1, [], rfl, rfl, h1, ⟨rfl, rfl⟩, ?_, ?_, by simp, ?_⟩
      · intro c hc c' hc'
        obtain ⟨rfl, rfl⟩ : c = 0 ∧ c' = 0 := by omega
        simp [box, mv]
      · intro a _ x _ c hc
        obtain rfl : c = 0 := by omega
        simp [box, mv, h1]
      · intro ε _ _ _
        simp only [sum_box_cons, sum_box_nil, mv, h1]
        simp
    | cons e' es =>
    intro A ds _ h
    obtain ⟨X, L, ds', rfl, h1, h2⟩ := h
    obtain ⟨f, fs, Y, R, ds'', hc, rfl, j1, j2, j3, j4, j5, j6⟩ := ih L ds' (by simp) h2
    obtain ⟨s1, s2⟩ := hf.shape f 1
    rw [j1] at s1 s2
    obtain ⟨u1, u2⟩ := cano_u s1
    obtain ⟨v1, v2⟩ := cano_prev h1 u1
    have hcl : canoLoop lib (e :: e' :: es) =
        contractN e [2] (contractN (lib.svd f 1).u [1] (lib.svd f 1).s.ten [0]) [0] ::
          (lib.svd f 1).vt :: fs := by
      rw [canoLoop, hc]; rfl
    have hR : f.shape.getD 0 0 = L := by rw [j1]; rfl
    set K := (lib.svd f 1).s.dim with hK
    have hmv : ∀ y ys k, mv ((lib.svd f 1).vt :: fs) (y :: ys) k =
        ∑ c ∈ Finset.range R, (lib.svd f 1).vt.elem [k, y, c] * mv fs ys c := by
      intro y ys k
      rw [mv, s2]
      rfl
    have hvv : ∀ k < K, ∀ k' < K, ∑ y ∈ Finset.range Y, ∑ c ∈ Finset.range R,
        (lib.svd f 1).vt.elem [k, y, c] * (starRingEnd 𝕜) ((lib.svd f 1).vt.elem [k', y, c]) = if k = k' then 1 else 0 := by
      intro k hk k' hk'
      have := hf.vv f 1 k hk k' hk'
      rw [j1, sumCoors_box, List.drop_succ_cons, List.drop_zero, sum_box_cons] at this
      simp only [sum_box_cons, sum_box_nil] at this
      exact this
    have huu : ∀ k < K, ∀ k' < K, ∑ l ∈ Finset.range L,
        (starRingEnd 𝕜) ((lib.svd f 1).u.elem [l, k]) * (lib.svd f 1).u.elem [l, k'] = if k = k' then 1 else 0 := by
      intro k hk k' hk'
      have := hf.uu f 1 k hk k' hk'
      rw [j1, sumCoors_box] at this
      simp only [List.take_succ_cons, List.take_zero, sum_box_cons, sum_box_nil] at this
      exact this
    have htv : ∀ k < K, ∀ l < L, ∑ y ∈ Finset.range Y, ∑ c ∈ Finset.range R,
        f.elem [l, y, c] * (starRingEnd 𝕜) ((lib.svd f 1).vt.elem [k, y, c]) =
          (lib.svd f 1).u.elem [l, k] * ((lib.svd f 1).s.val k : 𝕜) := by
      intro k hk l hl
      have := hf.tv f 1 k hk [l] (by rw [j1]; exact .cons hl .nil)
      rw [j1, sumCoors_box, List.drop_succ_cons, List.drop_zero, sum_box_cons] at this
      simp only [sum_box_cons, sum_box_nil] at this
      exact this
    have hnew : ∀ a x, ∀ k < K, (contractN e [2] (contractN (lib.svd f 1).u [1] (lib.svd f 1).s.ten [0]) [0]).elem [a, x, k] =
        ∑ l ∈ Finset.range L, e.elem [a, x, l] * ((lib.svd f 1).u.elem [l, k] * ((lib.svd f 1).s.val k : 𝕜)) := by
      intro a x k hk
      rw [v2]
      exact Finset.sum_congr rfl fun l _ => by rw [u2 l k hk]
    refine ⟨_, _, X, K, Y :: ds'', hcl, rfl, v1, ⟨Y, R, ds'', rfl, s2, j2⟩, ?_, ?_, ?_, ?_⟩
    · intro k hk k' hk'
      rw [sum_box_cons, ← hvv k hk k' hk']
      refine Finset.sum_congr rfl fun y _ => ?_
      simp only [hmv]
      exact parseval j3 _ _
    · intro a _ x _ k hk
      rw [hnew a x k hk, sum_box_cons]
      have hes : ∀ zs, mv (e :: e' :: es) (x :: zs) a = ∑ l ∈ Finset.range L, e.elem [a, x, l] * mv (e' :: es) zs l := by
        intro zs
        rw [mv, h1]
        rfl
      simp only [hmv, hes, map_sum, map_mul, Finset.sum_mul, Finset.mul_sum]
      calc _ = ∑ l ∈ Finset.range L, e.elem [a, x, l] * ∑ y ∈ Finset.range Y, ∑ c ∈ Finset.range R,
            f.elem [l, y, c] * (starRingEnd 𝕜) ((lib.svd f 1).vt.elem [k, y, c]) := by
            refine Finset.sum_congr rfl fun l hl => ?_
            rw [htv k hk l (Finset.mem_range.1 hl)]
        _ = ∑ l ∈ Finset.range L, ∑ y ∈ Finset.range Y, ∑ ys ∈ box ds'', ∑ c ∈ Finset.range R,
            (starRingEnd 𝕜) ((lib.svd f 1).vt.elem [k, y, c]) * (starRingEnd 𝕜) (mv fs ys c) *
              (e.elem [a, x, l] * mv (e' :: es) (y :: ys) l) := by
            refine Finset.sum_congr rfl fun l hl => ?_
            rw [Finset.mul_sum]
            refine Finset.sum_congr rfl fun y hy => ?_
            rw [Finset.mul_sum, Finset.sum_comm]
            refine Finset.sum_congr rfl fun c hc => ?_
            rw [j4 l (Finset.mem_range.1 hl) y (Finset.mem_range.1 hy) c (Finset.mem_range.1 hc), Finset.sum_mul, Finset.mul_sum]
            exact Finset.sum_congr rfl fun ys _ => by ring
        _ = _ := by
            rw [Finset.sum_comm]
            refine Finset.sum_congr rfl fun y _ => ?_
            rw [Finset.sum_comm]
    · intro D hD g hg
      rcases List.mem_cons.1 hg with rfl | hg
      · rw [s2]
        exact hD f (by rw [j1]; rfl)
      · exact j5 D hD g hg
    · intro ε hε hd hl
      have he : LIso e := hl e (by simp)
      have hrec := j6 ε hε hd fun g hg => hl g (by simp only [List.dropLast_cons₂, List.mem_cons]; exact .inr hg)
      have hf3 := hd f (by rw [j1]; rfl)
      have hnf : normSq f.shape f.elem = ∑ a ∈ Finset.range L, ∑ x ∈ Finset.range Y, ∑ c ∈ Finset.range R, ‖f.elem [a, x, c]‖ ^ 2 := by
        rw [normSq, j1, sumCoors_box]
        simp only [sum_box_cons, sum_box_nil]
      rw [hnf] at hf3
      have hW : ∑ a ∈ Finset.range A, ∑ zs ∈ box (X :: Y :: ds''), ‖mv (e :: e' :: es) zs a‖ ^ 2 =
          ∑ l ∈ Finset.range L, ∑ zs ∈ box (Y :: ds''), ‖mv (e' :: es) zs l‖ ^ 2 := by
        rw [← LIso.norm he h1 (box (Y :: ds'')) (fun zs l => mv (e' :: es) zs l)]
        refine Finset.sum_congr rfl fun a _ => ?_
        rw [sum_box_cons]
        refine Finset.sum_congr rfl fun x _ => Finset.sum_congr rfl fun zs _ => ?_
        rw [mv, h1]
        rfl
      have hN : ∑ a ∈ Finset.range A, ∑ x ∈ Finset.range X, ∑ c ∈ Finset.range K,
          ‖(contractN e [2] (contractN (lib.svd f 1).u [1] (lib.svd f 1).s.ten [0]) [0]).elem [a, x, c]‖ ^ 2 =
          ∑ m ∈ Finset.range K, (lib.svd f 1).s.val m ^ 2 := by
        have h := LIso.norm he h1 (Finset.range K) (fun k l => (lib.svd f 1).u.elem [l, k] * ((lib.svd f 1).s.val k : 𝕜))
        rw [Finset.sum_congr rfl fun a _ => Finset.sum_congr rfl fun x _ => Finset.sum_congr rfl fun k hk => by
          rw [hnew a x k (Finset.mem_range.1 hk)], h, Finset.sum_comm]
        refine Finset.sum_congr rfl fun k hk => ?_
        have hk := Finset.mem_range.1 hk
        have h1 : ∑ l ∈ Finset.range L, ‖(lib.svd f 1).u.elem [l, k]‖ ^ 2 = 1 := by
          have := huu k hk k hk
          rw [if_pos rfl] at this
          apply RCLike.ofReal_injective (K := 𝕜)
          simp only [RCLike.ofReal_sum, sq_eq]
          rw [this, RCLike.ofReal_one]
        simp only [norm_mul, mul_pow, RCLike.norm_ofReal, sq_abs]
        rw [← Finset.sum_mul, h1, one_mul]
      rw [hW, hN]
      have h0 : 0 ≤ 1 - ε := by linarith
      have : (e :: e' :: es).length - 1 = ((e' :: es).length - 1) + 1 := by simp
      rw [this, pow_succ', mul_assoc]
      exact (mul_le_mul_of_nonneg_left hrec h0).trans hf3

/-- every tensor of the product but the last one is an isometry -/
theorem mulLoop_iso {lib : Lib 𝕜} (hf : Factorizations lib) (p : Pos) (es : List (Tn 𝕜)) :
    ∀ (r : Tn 𝕜) (ts : List (Tn 𝕜)) (M A D : ℕ) (ds fs : List ℕ),
      r.shape = [M, A, D] → Shp es D ds → RShp p ts A ds fs →
      ∀ e ∈ (mulLoop lib p r es ts).dropLast, LIso e := by
  induction es with
  | nil => intro r ts M A D ds fs _ _ _ e he; simp [mulLoop] at he
  | cons e es ih =>
    intro r ts M A D ds fs hr he ht
    obtain ⟨X, D', ds', rfl, he1, he2⟩ := he
    cases ts with
    | nil => obtain ⟨_, h, _⟩ := ht; exact absurd h (by simp)
    | cons t ts =>
    obtain ⟨X', b, Y, ds'', fs', h, rfl, ht1, ht2⟩ := ht
    obtain ⟨rfl, rfl⟩ : X' = X ∧ ds'' = ds' := by simpa using h.symm
    cases es with
    | nil => intro g hg; simp [mulLoop] at hg
    | cons e' es =>
      obtain ⟨h3, _⟩ := mul_tmp2 he1 hr p ht1
      obtain ⟨h5, _⟩ := transpose_1320 h3
      intro g hg
      have hml : mulLoop lib p r (e :: e' :: es) (t :: ts) =
        (lib.qr (transpose [1, 3, 2, 0] (contract2 (contract e 0 r 2) 3 t (prePost p))) 2).1 ::
          mulLoop lib p (lib.qr (transpose [1, 3, 2, 0] (contract2 (contract e 0 r 2) 3 t (prePost p))) 2).2 (e' :: es) ts := rfl
      obtain ⟨k, q1, q2, _, _, q5⟩ := hf.qr (transpose [1, 3, 2, 0]
        (contract2 (contract e 0 r 2) 3 t (prePost p))) 2
      rw [h5] at q1 q2 q5
      rw [hml] at hg
      have hg : g = (lib.qr (transpose [1, 3, 2, 0]
          (contract2 (contract e 0 r 2) 3 t (prePost p))) 2).1 ∨ g ∈ (mulLoop lib p (lib.qr (transpose [1, 3, 2, 0]
          (contract2 (contract e 0 r 2) 3 t (prePost p))) 2).2 (e' :: es) ts).dropLast := by
        generalize mulLoop lib p (lib.qr (transpose [1, 3, 2, 0]
          (contract2 (contract e 0 r 2) 3 t (prePost p))) 2).2 (e' :: es) ts = out at hg
        cases out with
        | nil => simp at hg
        | cons o os => exact List.mem_cons.1 hg
      rcases hg with rfl | hg
      · refine ⟨M, Y, k, q1, fun c hc c' hc' => ?_⟩
        have := q5 c hc c' hc'
        rw [sumCoors_box] at this
        simp only [List.take_succ_cons, List.take_zero, sum_box_cons, sum_box_nil] at this
        exact this
      · exact ih _ ts k b D' ds'' fs' (by rw [q2]; rfl) he2 ht2 g hg

/-! ## the whole multiplication -/

variable {p : Pos} {mps mpo : List (Tn 𝕜)} {ds fs : List ℕ}

/-- the exact product and the result of the compression -/
theorem svd_spec {lib : Lib 𝕜} (hf : Factorizations lib) (h1 : Shp mps 1 ds) (h2 : RShp p mpo 1 ds fs)
    (hne : mps ≠ []) (r : Tn 𝕜)
    (hr : r = transpose [2, 0, 1] (indexCombine (𝕜 := 𝕜) ((mpo.headD nil).shape.getD (prePost p) 0)
      ((mps.headD nil).shape.getD 0 0))) :
    ∃ first rest B, canoLoop lib (mulLoop lib p r mps mpo) = first :: rest ∧ first.shape = [1, fs.getD 0 0, B] ∧
      fs ≠ [] ∧ Shp (first :: rest) 1 fs ∧
      (∀ c < B, ∀ c' < B, overlap (fs.drop 1) (fun ys => amp rest ys c') (fun ys => amp rest ys c) =
        if c = c' then 1 else 0) ∧
      (∀ t : Tn 𝕜, t.shape = first.shape →
        normSq fs (fun ys => product p mps mpo ds ys - amp (t :: rest) ys 0) =
          normSq fs (fun ys => product p mps mpo ds ys - amp (first :: rest) ys 0) +
            ∑ x ∈ Finset.range (fs.getD 0 0), ∑ c ∈ Finset.range B, ‖first.elem [0, x, c] - t.elem [0, x, c]‖ ^ 2) ∧
      normSq fs (fun ys => amp (first :: rest) ys 0) =
        ∑ x ∈ Finset.range (fs.getD 0 0), ∑ c ∈ Finset.range B, ‖first.elem [0, x, c]‖ ^ 2 ∧
      (∀ D, AtMost lib D → ∀ g ∈ rest, g.shape.getD 0 0 ≤ D) ∧
      ∀ ε ≤ 1, Discards lib ε → (1 - ε) ^ (fs.length - 1) * normSq fs (product p mps mpo ds) ≤
        normSq fs (fun ys => amp (first :: rest) ys 0) := by
  obtain ⟨m1, m2⟩ := mul_spec' hf p mps mpo ds fs h1 h2 hne r hr
  have m3 : ∀ e ∈ (mulLoop lib p r mps mpo).dropLast, LIso e := by
    obtain ⟨r1, _⟩ := combine_r (𝕜 := 𝕜) _ _ (head_mpo h1 h2 hne) (head_mps h1 hne)
    exact mulLoop_iso hf p mps r mpo 1 1 1 ds fs (by rw [hr, r1, head_mpo h1 h2 hne, head_mps h1 hne]) h1 h2
  have m4 := Shp.length m1
  have m5 : ∀ ys ∈ box fs, mv (mulLoop lib p r mps mpo) ys 0 = product p mps mpo ds ys := by
    intro ys hys
    rw [m2 ys hys, product_eq h1 h2 hys, tv_eq p mps mpo 1 1 ds fs h1 h2 ys hys]
  generalize mulLoop lib p r mps mpo = es at *
  have hes : es ≠ [] := by
    rintro rfl
    obtain ⟨_, rfl⟩ := m1
    cases mpo with
    | cons t ts => obtain ⟨_, _, _, _, _, _, h, _⟩ := h2; exact absurd h (by simp)
    | nil =>
      obtain ⟨_, rfl, _⟩ := h2
      exact hne (List.length_eq_zero_iff.1 (Shp.length h1))
  obtain ⟨f, rest, Y, B, fs', c1, rfl, c3, c4, c5, c6, c7, c8⟩ := cano_trunc hf es 1 fs hes m1
  simp only [List.getD_cons_zero, List.drop_succ_cons, List.drop_zero] at *
  have hamp : ∀ t : Tn 𝕜, t.shape = [1, Y, B] → ∀ x ys, amp (t :: rest) (x :: ys) 0 =
      ∑ c ∈ Finset.range B, t.elem [0, x, c] * mv rest ys c := by
    intro t ht x ys
    rw [amp_eq, mv, ht]
    rfl
  have hA : ∀ x < Y, ∀ c < B, f.elem [0, x, c] =
      ∑ ys ∈ box fs', (starRingEnd 𝕜) (mv rest ys c) * product p mps mpo ds (x :: ys) := by
    intro x hx c hc
    rw [c6 0 (by omega) x hx c hc]
    exact Finset.sum_congr rfl fun ys hys => by rw [m5 _ (cons_mem_box.2 ⟨hx, hys⟩)]
  have hnorm : normSq (Y :: fs') (fun ys => amp (f :: rest) ys 0) =
        ∑ x ∈ Finset.range Y, ∑ c ∈ Finset.range B, ‖f.elem [0, x, c]‖ ^ 2 := by
    simp only [normSq, sumCoors_box, sum_box_cons, hamp f c3]
    refine Finset.sum_congr rfl fun x hx => ?_
    have := parseval c5 (fun c => f.elem [0, x, c]) (fun c => f.elem [0, x, c])
    simp only [RCLike.mul_conj] at this
    apply RCLike.ofReal_injective (K := 𝕜)
    push_cast
    exact this
  refine ⟨f, rest, B, c1, c3, by simp, ⟨Y, B, fs', rfl, c3, c4⟩, ?_, ?_, hnorm, c7, ?_⟩
  · intro c hc c' hc'
    rw [overlap, sumCoors_box, ← c5 c hc c' hc']
    refine Finset.sum_congr rfl fun ys _ => ?_
    simp only [amp_eq, mul_comm]
  · intro t ht
    have ht : t.shape = [1, Y, B] := ht.trans c3
    simp only [normSq, sumCoors_box, sum_box_cons, hamp t ht, hamp f c3]
    rw [← Finset.sum_add_distrib]
    refine Finset.sum_congr rfl fun x hx => ?_
    exact pythagoras c5 (fun ys => product p mps mpo ds (x :: ys)) (fun c => f.elem [0, x, c])
      (fun c => t.elem [0, x, c]) (hA x (Finset.mem_range.1 hx))
  · intro ε hε hd
    have := c8 ε hε hd m3
    rw [hnorm, normSq, sumCoors_box]
    simp only [Finset.range_one, Finset.sum_singleton] at this
    rw [m4] at this
    rw [Finset.sum_congr rfl fun ys hys => by rw [← m5 ys hys]]
    exact this

end

end QLPeps.BmpsVar
