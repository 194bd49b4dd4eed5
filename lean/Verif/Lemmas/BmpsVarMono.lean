import Verif.Lemmas.BmpsVarBest

/-! # The norm of the result grows with the one-site sweeps -/

namespace QLPeps.BmpsVar

open QLPeps.Contractor QLPeps.Sweep QLPeps.Bmps QLPeps.Box
open QLPeps.Peps (Tn Lib rot contract contractN transpose dag sumCoors)
open QLPeps.BmpsVar.Spec (Factorizations Keeps)

noncomputable section

variable {𝕜 : Type*} [RCLike 𝕜]

/-- Bessel's inequality -/
theorem bessel {α : Type*} {S : Finset α} {C : ℕ} {F : ℕ → α → 𝕜}
    (h : ∀ c < C, ∀ c' < C, ∑ x ∈ S, F c x * (starRingEnd 𝕜) (F c' x) = if c = c' then 1 else 0) (T : α → 𝕜) :
    ∑ c ∈ Finset.range C, ‖∑ x ∈ S, (starRingEnd 𝕜) (F c x) * T x‖ ^ 2 ≤ ∑ x ∈ S, ‖T x‖ ^ 2 := by
  have e := pythagoras h T (fun c => ∑ x ∈ S, (starRingEnd 𝕜) (F c x) * T x) (fun _ => 0) (fun _ _ => rfl)
  simp only [zero_mul, Finset.sum_const_zero, sub_zero] at e
  rw [e]
  exact le_add_of_nonneg_left (Finset.sum_nonneg fun _ _ => sq_nonneg _)

/-- in the span, Bessel's inequality is an equality -/
theorem bessel_eq {α : Type*} {S : Finset α} {C : ℕ} {F : ℕ → α → 𝕜}
    (h : ∀ c < C, ∀ c' < C, ∑ x ∈ S, F c x * (starRingEnd 𝕜) (F c' x) = if c = c' then 1 else 0) (T : α → 𝕜) (A : ℕ → 𝕜)
    (hT : ∀ x ∈ S, T x = ∑ c ∈ Finset.range C, A c * F c x) :
    ∑ x ∈ S, ‖T x‖ ^ 2 = ∑ c ∈ Finset.range C, ‖∑ x ∈ S, (starRingEnd 𝕜) (F c x) * T x‖ ^ 2 := by
  have e := pythagoras h T (fun c => ∑ x ∈ S, (starRingEnd 𝕜) (F c x) * T x) A (fun _ _ => rfl)
  have e2 := pythagoras h T (fun c => ∑ x ∈ S, (starRingEnd 𝕜) (F c x) * T x) (fun _ => 0) (fun _ _ => rfl)
  simp only [zero_mul, Finset.sum_const_zero, sub_zero] at e2
  rw [Finset.sum_eq_zero fun x hx => by rw [hT x hx, sub_self, norm_zero, zero_pow two_ne_zero]] at e
  have h0 : 0 ≤ ∑ x ∈ S, ‖T x - ∑ c ∈ Finset.range C, (∑ x ∈ S, (starRingEnd 𝕜) (F c x) * T x) * F c x‖ ^ 2 :=
    Finset.sum_nonneg fun _ _ => sq_nonneg _
  have h1 : 0 ≤ ∑ c ∈ Finset.range C, ‖(∑ x ∈ S, (starRingEnd 𝕜) (F c x) * T x) - A c‖ ^ 2 :=
    Finset.sum_nonneg fun _ _ => sq_nonneg _
  have h2 : ∑ x ∈ S, ‖T x - ∑ c ∈ Finset.range C, (∑ x ∈ S, (starRingEnd 𝕜) (F c x) * T x) * F c x‖ ^ 2 = 0 := by linarith
  rw [e2, h2, zero_add]

section

variable {p : Pos} {mps mpo : List (Tn 𝕜)} {fs : List ℕ} {n : ℕ} {md wd xd : ℕ → ℕ}

/-- overlap of the product with the sites before and from `k` on -/
def bondOv (p : Pos) (mps mpo : List (Tn 𝕜)) (fs : List ℕ) (md wd : ℕ → ℕ) (res : List (Tn 𝕜)) (k c c' : ℕ) : 𝕜 :=
  ∑ ys1 ∈ box (fs.take k).reverse, mvr (res.take k).reverse ys1 c * ∑ ys2 ∈ box (fs.drop k), mv (res.drop k) ys2 c' *
    cutv p mps mpo md wd k ys1 ys2

/-- overlap of the product with the sites before and after `i` -/
def siteOv (p : Pos) (mps mpo : List (Tn 𝕜)) (fs : List ℕ) (md wd : ℕ → ℕ) (res : List (Tn 𝕜)) (i c x c' : ℕ) : 𝕜 :=
  ∑ ys1 ∈ box (fs.take i).reverse, mvr (res.take i).reverse ys1 c * ∑ ys2 ∈ box (fs.drop (i + 1)),
    mv (res.drop (i + 1)) ys2 c' * cutv p mps mpo md wd i ys1 (x :: ys2)

theorem siteOv_set (res : List (Tn 𝕜)) (i : ℕ) (a : Tn 𝕜) (c x c' : ℕ) :
    siteOv p mps mpo fs md wd (res.set i a) i c x c' = siteOv p mps mpo fs md wd res i c x c' := by
  rw [siteOv, siteOv, List.take_set_of_le le_rfl, List.drop_set_of_lt (by omega)]

/-- the overlap at the bond after site `i` -/
theorem bondOv_left (h : Chain p mps mpo fs n md wd xd) {i : ℕ} (hi : i < n) {res : List (Tn 𝕜)} (hlen : res.length = n)
    {C K : ℕ} (ha : (res.getD i nil).shape = [C, fs.getD i 0, K]) (m c' : ℕ) :
    bondOv p mps mpo fs md wd res (i + 1) m c' = ∑ x ∈ Finset.range (fs.getD i 0), ∑ c ∈ Finset.range C,
      (res.getD i nil).elem [c, x, m] * siteOv p mps mpo fs md wd res i c x c' := by
  rw [bondOv, box_take_succ h hi, sum_box_cons]
  refine Finset.sum_congr rfl fun x _ => ?_
  rw [take_succ_rev (l := res) (hlen ▸ hi) nil]
  simp only [mvr, ha, List.getD_cons_zero, cut_move h hi, siteOv, Finset.sum_mul]
  rw [Finset.sum_comm]
  refine Finset.sum_congr rfl fun c _ => ?_
  rw [Finset.mul_sum]
  exact Finset.sum_congr rfl fun ys _ => by ring

/-- the overlap at the bond before site `i` -/
theorem bondOv_right (h : Chain p mps mpo fs n md wd xd) {i : ℕ} (hi : i < n) {res : List (Tn 𝕜)} (hlen : res.length = n)
    {C K : ℕ} (ha : (res.getD i nil).shape = [K, fs.getD i 0, C]) (c m : ℕ) :
    bondOv p mps mpo fs md wd res i c m = ∑ x ∈ Finset.range (fs.getD i 0), ∑ c' ∈ Finset.range C,
      (res.getD i nil).elem [m, x, c'] * siteOv p mps mpo fs md wd res i c x c' := by
  rw [bondOv, box_drop h hi]
  simp only [sum_box_cons]
  rw [drop_cons (l := res) (k := i) (hlen ▸ hi) nil]
  simp only [mv, ha, List.getD_cons_zero, List.getD_cons_succ, siteOv, Finset.sum_mul, Finset.mul_sum]
  calc _ = ∑ ys1 ∈ box (fs.take i).reverse, ∑ x ∈ Finset.range (fs.getD i 0), ∑ c' ∈ Finset.range C, ∑ ys2 ∈ box (fs.drop (i + 1)),
        (res.getD i nil).elem [m, x, c'] * (mvr (res.take i).reverse ys1 c *
          (mv (res.drop (i + 1)) ys2 c' * cutv p mps mpo md wd i ys1 (x :: ys2))) := by
        refine Finset.sum_congr rfl fun ys1 _ => Finset.sum_congr rfl fun x _ => ?_
        rw [Finset.sum_comm]
        exact Finset.sum_congr rfl fun c' _ => Finset.sum_congr rfl fun ys2 _ => by ring
    _ = _ := by
        rw [Finset.sum_comm]
        exact Finset.sum_congr rfl fun x _ => Finset.sum_comm

/-- the squared norm of the tensor of site `i` -/
def siteNorm (p : Pos) (mps mpo : List (Tn 𝕜)) (fs : List ℕ) (md wd : ℕ → ℕ) (res : List (Tn 𝕜)) (i C C' : ℕ) : ℝ :=
  ∑ c ∈ Finset.range C, ∑ c' ∈ Finset.range C', ∑ x ∈ Finset.range (fs.getD i 0),
    ‖siteOv p mps mpo fs md wd res i c x c'‖ ^ 2

/-- the squared norm at a bond -/
def bondNorm (p : Pos) (mps mpo : List (Tn 𝕜)) (fs : List ℕ) (md wd : ℕ → ℕ) (res : List (Tn 𝕜)) (k C C' : ℕ) : ℝ :=
  ∑ c ∈ Finset.range C, ∑ c' ∈ Finset.range C', ‖bondOv p mps mpo fs md wd res k c c'‖ ^ 2

/-- the tensor of a site whose columns are orthonormal keeps at most the norm -/
theorem bond_le_left (h : Chain p mps mpo fs n md wd xd) {i : ℕ} (hi : i < n) {res : List (Tn 𝕜)} (hlen : res.length = n)
    {C K : ℕ} (C' : ℕ) (ha : (res.getD i nil).shape = [C, fs.getD i 0, K])
    (ho : ∀ m < K, ∀ m' < K, ∑ x ∈ Finset.range (fs.getD i 0), ∑ c ∈ Finset.range C,
      (starRingEnd 𝕜) ((res.getD i nil).elem [c, x, m]) * (res.getD i nil).elem [c, x, m'] = if m = m' then 1 else 0) :
    bondNorm p mps mpo fs md wd res (i + 1) K C' ≤ siteNorm p mps mpo fs md wd res i C C' := by
  rw [bondNorm, siteNorm, Finset.sum_comm, Finset.sum_comm (s := Finset.range C)]
  refine Finset.sum_le_sum fun c' _ => ?_
  have := bessel (S := Finset.range (fs.getD i 0) ×ˢ Finset.range C) (C := K)
    (F := fun m x => (starRingEnd 𝕜) ((res.getD i nil).elem [x.2, x.1, m])) (fun m hm m' hm' => by
      rw [Finset.sum_product, ← ho m hm m' hm']
      simp only [RCLike.conj_conj]) (fun x => siteOv p mps mpo fs md wd res i x.2 x.1 c')
  simp only [RCLike.conj_conj, Finset.sum_product] at this
  rw [Finset.sum_comm (s := Finset.range C)]
  refine le_trans (le_of_eq ?_) this
  exact Finset.sum_congr rfl fun m _ => by rw [bondOv_left h hi hlen ha]

theorem bond_le_right (h : Chain p mps mpo fs n md wd xd) {i : ℕ} (hi : i < n) {res : List (Tn 𝕜)} (hlen : res.length = n)
    {C K : ℕ} (C' : ℕ) (ha : (res.getD i nil).shape = [K, fs.getD i 0, C])
    (ho : ∀ m < K, ∀ m' < K, ∑ x ∈ Finset.range (fs.getD i 0), ∑ c ∈ Finset.range C,
      (res.getD i nil).elem [m, x, c] * (starRingEnd 𝕜) ((res.getD i nil).elem [m', x, c]) = if m = m' then 1 else 0) :
    bondNorm p mps mpo fs md wd res i C' K ≤ siteNorm p mps mpo fs md wd res i C' C := by
  rw [bondNorm, siteNorm]
  refine Finset.sum_le_sum fun c _ => ?_
  have := bessel (S := Finset.range (fs.getD i 0) ×ˢ Finset.range C) (C := K)
    (F := fun m x => (starRingEnd 𝕜) ((res.getD i nil).elem [m, x.1, x.2])) (fun m hm m' hm' => by
      have := ho m' hm' m hm
      simp only [eq_comm (a := m') (b := m)] at this
      rw [Finset.sum_product, ← this]
      simp only [RCLike.conj_conj, mul_comm]) (fun x => siteOv p mps mpo fs md wd res i c x.1 x.2)
  simp only [RCLike.conj_conj, Finset.sum_product] at this
  rw [Finset.sum_comm (s := Finset.range C)]
  refine le_trans (le_of_eq ?_) this
  exact Finset.sum_congr rfl fun m _ => by rw [bondOv_right h hi hlen ha]

/-- a factor `Q` keeps the norm -/
theorem bond_eq_left (h : Chain p mps mpo fs n md wd xd) {i : ℕ} (hi : i < n) {res : List (Tn 𝕜)} (hlen : res.length = n)
    {C C' K : ℕ} {q : Tn 𝕜} {R : ℕ → ℕ → 𝕜} (ha : q.shape = [C, fs.getD i 0, K])
    (ho : ∀ m < K, ∀ m' < K, ∑ c ∈ Finset.range C, ∑ x ∈ Finset.range (fs.getD i 0),
      (starRingEnd 𝕜) (q.elem [c, x, m]) * q.elem [c, x, m'] = if m = m' then 1 else 0)
    (hq : ∀ c < C, ∀ x < fs.getD i 0, ∀ c' < C', ∑ m ∈ Finset.range K, q.elem [c, x, m] * R m c' =
      (starRingEnd 𝕜) (siteOv p mps mpo fs md wd res i c x c')) :
    bondNorm p mps mpo fs md wd (res.set i q) (i + 1) K C' = siteNorm p mps mpo fs md wd res i C C' := by
  have hget : (res.set i q).getD i nil = q := by
    rw [List.getD_eq_getElem _ _ (by simpa [hlen] using hi)]; simp
  rw [bondNorm, siteNorm, Finset.sum_comm, Finset.sum_comm (s := Finset.range C)]
  refine Finset.sum_congr rfl fun c' hc' => ?_
  have := bessel_eq (S := Finset.range (fs.getD i 0) ×ˢ Finset.range C) (C := K)
    (F := fun m x => (starRingEnd 𝕜) (q.elem [x.2, x.1, m])) (fun m hm m' hm' => by
      rw [Finset.sum_product, ← ho m hm m' hm', Finset.sum_comm]
      simp only [RCLike.conj_conj]) (fun x => siteOv p mps mpo fs md wd res i x.2 x.1 c') (fun m => (starRingEnd 𝕜) (R m c')) (by
      rintro ⟨x, c⟩ hx
      obtain ⟨hx, hc⟩ := Finset.mem_product.1 hx
      dsimp only at hx hc ⊢
      have e := congrArg (starRingEnd 𝕜) (hq c (Finset.mem_range.1 hc) x (Finset.mem_range.1 hx) c' (Finset.mem_range.1 hc'))
      rw [RCLike.conj_conj] at e
      rw [← e, map_sum]
      exact Finset.sum_congr rfl fun m _ => by rw [map_mul, mul_comm])
  simp only [RCLike.conj_conj, Finset.sum_product] at this
  rw [Finset.sum_comm (s := Finset.range C), this]
  exact Finset.sum_congr rfl fun m _ => by
    rw [bondOv_left h hi (by simpa using hlen) (by rw [hget]; exact ha), hget]
    simp only [siteOv_set]

theorem bond_eq_right (h : Chain p mps mpo fs n md wd xd) {i : ℕ} (hi : i < n) {res : List (Tn 𝕜)} (hlen : res.length = n)
    {C C' K : ℕ} {q : Tn 𝕜} {R : ℕ → ℕ → 𝕜} (ha : q.shape = [K, fs.getD i 0, C'])
    (ho : ∀ m < K, ∀ m' < K, ∑ c ∈ Finset.range C', ∑ x ∈ Finset.range (fs.getD i 0),
      (starRingEnd 𝕜) (q.elem [m, x, c]) * q.elem [m', x, c] = if m = m' then 1 else 0)
    (hq : ∀ c' < C', ∀ x < fs.getD i 0, ∀ c < C, ∑ m ∈ Finset.range K, q.elem [m, x, c'] * R m c =
      (starRingEnd 𝕜) (siteOv p mps mpo fs md wd res i c x c')) :
    bondNorm p mps mpo fs md wd (res.set i q) i C K = siteNorm p mps mpo fs md wd res i C C' := by
  have hget : (res.set i q).getD i nil = q := by
    rw [List.getD_eq_getElem _ _ (by simpa [hlen] using hi)]; simp
  rw [bondNorm, siteNorm]
  refine Finset.sum_congr rfl fun c hc => ?_
  have := bessel_eq (S := Finset.range (fs.getD i 0) ×ˢ Finset.range C') (C := K)
    (F := fun m x => (starRingEnd 𝕜) (q.elem [m, x.1, x.2])) (fun m hm m' hm' => by
      rw [Finset.sum_product, ← ho m hm m' hm', Finset.sum_comm]
      simp only [RCLike.conj_conj]) (fun x => siteOv p mps mpo fs md wd res i c x.1 x.2) (fun m => (starRingEnd 𝕜) (R m c)) (by
      rintro ⟨x, c'⟩ hx
      obtain ⟨hx, hc'⟩ := Finset.mem_product.1 hx
      dsimp only at hx hc' ⊢
      have e := congrArg (starRingEnd 𝕜) (hq c' (Finset.mem_range.1 hc') x (Finset.mem_range.1 hx) c (Finset.mem_range.1 hc))
      rw [RCLike.conj_conj] at e
      rw [← e, map_sum]
      exact Finset.sum_congr rfl fun m _ => by rw [map_mul, mul_comm])
  simp only [RCLike.conj_conj, Finset.sum_product] at this
  rw [Finset.sum_comm (s := Finset.range C'), this]
  exact Finset.sum_congr rfl fun m _ => by
    rw [bondOv_right h hi (by simpa using hlen) (by rw [hget]; exact ha), hget]
    simp only [siteOv_set]

/-- the rows of a tensor between two right environments are orthonormal -/
theorem rows_orth (h : Chain p mps mpo fs n md wd xd) {i : ℕ} (hi : i < n) {res : List (Tn 𝕜)} (hlen : res.length = n)
    {r r' : Tn 𝕜} {M W C M' W' C' : ℕ} {es ts es' ts' : List (Tn 𝕜)} (hr : REnv p es ts (res.drop i) (fs.drop i) M W C r)
    (hr' : REnv p es' ts' (res.drop (i + 1)) (fs.drop (i + 1)) M' W' C' r') :
    (res.getD i nil).shape = [C, fs.getD i 0, C'] ∧
    ∀ m < C, ∀ m' < C, ∑ x ∈ Finset.range (fs.getD i 0), ∑ c ∈ Finset.range C',
      (res.getD i nil).elem [m, x, c] * (starRingEnd 𝕜) ((res.getD i nil).elem [m', x, c]) = if m = m' then 1 else 0 := by
  have hc := hr.chain
  have hiso := hr.iso
  rw [drop_cons (l := res) (k := i) (hlen ▸ hi) nil, box_drop h hi] at hc hiso
  obtain ⟨d, b, ds', e1, e2, e3⟩ := hc
  obtain ⟨rfl, rfl⟩ : fs.getD i 0 = d ∧ fs.drop (i + 1) = ds' := by simpa using e1
  have hb : b = C' ∨ res.drop (i + 1) = [] := by
    cases hd : res.drop (i + 1) with
    | nil => exact .inr rfl
    | cons a as =>
      left
      have h3 := e3
      have h4 := hr'.chain
      rw [hd] at h3 h4
      obtain ⟨_, _, _, _, h5, _⟩ := h3
      obtain ⟨_, _, _, _, h6, _⟩ := h4
      rw [h5] at h6
      simpa using (List.cons.inj h6).1
  have hb : b = C' := by
    rcases hb with hb | hb
    · exact hb
    · have h3 := e3
      have h4 := hr'.chain
      rw [hb] at h3 h4
      rw [h3.1, h4.1]
  subst hb
  refine ⟨e2, fun m hm m' hm' => ?_⟩
  rw [← hiso m hm m' hm', sum_box_cons]
  refine Finset.sum_congr rfl fun x _ => ?_
  simp only [mv, e2, List.getD_cons_zero, List.getD_cons_succ]
  exact (parseval (F := fun c ys => mv (res.drop (i + 1)) ys c) hr'.iso _ _).symm

/-- the columns of a tensor between two left environments are orthonormal -/
theorem cols_orth (h : Chain p mps mpo fs n md wd xd) {i : ℕ} (hi : i < n) {res : List (Tn 𝕜)} (hlen : res.length = n)
    {l l' : Tn 𝕜} {M W C M' W' C' : ℕ} {es ts es' ts' : List (Tn 𝕜)}
    (hl : LEnv p es ts (res.take i).reverse (fs.take i).reverse M W C l)
    (hl' : LEnv p es' ts' (res.take (i + 1)).reverse (fs.take (i + 1)).reverse M' W' C' l') :
    (res.getD i nil).shape = [C, fs.getD i 0, C'] ∧
    ∀ m < C', ∀ m' < C', ∑ x ∈ Finset.range (fs.getD i 0), ∑ c ∈ Finset.range C,
      (starRingEnd 𝕜) ((res.getD i nil).elem [c, x, m]) * (res.getD i nil).elem [c, x, m'] = if m = m' then 1 else 0 := by
  have hc := hl'.chain
  have hiso := hl'.iso'
  rw [take_succ_rev (l := res) (k := i) (hlen ▸ hi) nil, box_take_succ h hi] at hc hiso
  obtain ⟨d, b, ds', e1, e2, e3⟩ := hc
  obtain ⟨rfl, rfl⟩ : fs.getD i 0 = d ∧ (fs.take i).reverse = ds' := List.cons.inj e1
  have hb : b = C := by
    have h4 := hl.chain
    cases hd : (res.take i).reverse with
    | nil =>
      rw [hd] at e3 h4
      rw [e3.1, h4.1]
    | cons a as =>
      rw [hd] at e3 h4
      obtain ⟨_, _, _, _, h5, _⟩ := e3
      obtain ⟨_, _, _, _, h6, _⟩ := h4
      rw [h5] at h6
      simpa using (List.cons.inj (List.cons.inj (List.cons.inj h6).2).2).1
  subst hb
  refine ⟨e2, fun m hm m' hm' => ?_⟩
  have e := hiso m' hm' m hm
  simp only [eq_comm (a := m') (b := m)] at e
  rw [← e, sum_box_cons]
  refine Finset.sum_congr rfl fun x _ => ?_
  simp only [mvr, e2, List.getD_cons_zero]
  rw [parseval (F := fun c ys => mvr (res.take i).reverse ys c) hl.iso']
  exact Finset.sum_congr rfl fun _ _ => mul_comm _ _

/-- the squared norm of the tensor at site `i` in the present state -/
def energy (p : Pos) (mps mpo : List (Tn 𝕜)) (i : ℕ) (st : State 𝕜) : ℝ :=
  let M := oneSiteRight (leftHalf p (st.lenvs.headD nil) (mps.getD i nil) (mpo.getD i nil)) (st.renvs.headD nil)
  ∑ c ∈ Finset.range (M.shape.getD 0 0), ∑ c' ∈ Finset.range (M.shape.getD 2 0), ∑ x ∈ Finset.range (M.shape.getD 1 0),
    ‖M.elem [c, x, c']‖ ^ 2

theorem energy_eq (h : Chain p mps mpo fs n md wd xd) {i : ℕ} (hi : i < n) {st : State 𝕜} {C C' : ℕ} {l r : Tn 𝕜}
    {ls rs : List (Tn 𝕜)} (e1 : st.lenvs = l :: ls) (e2 : st.renvs = r :: rs)
    (hl : LEnv p (mps.take i).reverse (mpo.take i).reverse (st.res.take i).reverse (fs.take i).reverse (md i) (wd i) C l)
    (hr : REnv p (mps.drop (i + 1)) (mpo.drop (i + 1)) (st.res.drop (i + 1)) (fs.drop (i + 1)) (md (i + 1)) (wd (i + 1)) C' r) :
    energy p mps mpo i st = siteNorm p mps mpo fs md wd st.res i C C' := by
  have m := one_right_elem h hi hl hr
  dsimp only at m
  obtain ⟨m1, m2⟩ := m
  simp only [energy, e1, e2, List.headD_cons, m1, List.getD_cons_zero, List.getD_cons_succ, siteNorm]
  refine Finset.sum_congr rfl fun c hc => Finset.sum_congr rfl fun c' hc' => Finset.sum_congr rfl fun x hx => ?_
  rw [m2 c (Finset.mem_range.1 hc) x c' (Finset.mem_range.1 hc'), RCLike.norm_conj]
  rfl

theorem oneRight_energy {ex : Prop} (h : Chain p mps mpo fs n md wd xd) {lib : Lib 𝕜} (hf : Factorizations lib)
    {i j : ℕ} (hn : n = i + (j + 1) + 1) {st st' : State 𝕜} (hst : Inv p mps mpo fs n md wd ex i (j + 1) st)
    (hst' : Inv p mps mpo fs n md wd ex (i + 1) j st') (hs : oneRight lib p mps mpo i st = some st') :
    energy p mps mpo i st ≤ energy p mps mpo (i + 1) st' := by
  have hi : i < n := by omega
  obtain ⟨hlen, hl, hr⟩ := hst
  obtain ⟨l, ls, e1, C, hl, _⟩ := hl.cons
  obtain ⟨r, rs, e2, h2⟩ := hr.cons
  rw [show n - (j + 1) = i + 1 by omega] at h2
  obtain ⟨C', hr, _⟩ := h2
  rw [oneRight, e1, e2] at hs
  obtain rfl := (Option.some.inj hs).symm
  obtain ⟨hlen', hl', hr'⟩ := hst'
  obtain ⟨l', ls', e1', C1, hl', _⟩ := hl'.cons
  obtain ⟨r', rs', e2', h2'⟩ := hr'.cons
  rw [show n - j = i + 1 + 1 by omega] at h2'
  obtain ⟨C2, hr', _⟩ := h2'
  rw [energy_eq h hi e1 e2 hl hr, energy_eq h (by omega) e1' e2' hl' hr']
  have m := one_right_elem h hi hl hr
  dsimp only at m hl' hr' hlen' ⊢
  obtain ⟨m1, m2⟩ := m
  obtain ⟨k, s1, s2, _, s3, s4⟩ := qr3 hf m1
  generalize hq : (lib.qr (oneSiteRight (leftHalf p l (mps.getD i nil) (mpo.getD i nil)) r) 2) = qr at *
  have hget : (st.res.set i qr.1).getD i nil = qr.1 := by
    rw [List.getD_eq_getElem _ _ (by simpa [hlen] using hi)]; simp
  have hk : k = C1 := by
    have h5 := (cols_orth h hi hlen' (by rwa [List.take_set_of_le le_rfl] : LEnv p _ _ ((st.res.set i qr.1).take i).reverse _ _ _ C l) hl').1
    rw [hget, s1] at h5
    simpa using (List.cons.inj (List.cons.inj (List.cons.inj h5).2).2).1
  subst hk
  rw [← bond_eq_left h hi hlen s1 s3 (R := fun m c' => qr.2.elem [m, c']) (C' := C') (fun c hc x hx c' hc' => by
    rw [s4 c hc x hx c' hc', m2 c hc x c' hc']; rfl)]
  obtain ⟨o1, o2⟩ := rows_orth h (i := i + 1) (by omega) hlen'
    (by rwa [List.drop_set_of_lt (by omega)] : REnv p _ _ ((st.res.set i qr.1).drop (i + 1)) _ _ _ C' r) hr'
  exact bond_le_right h (by omega) hlen' k o1 o2

theorem oneLeft_energy {ex : Prop} (h : Chain p mps mpo fs n md wd xd) {lib : Lib 𝕜} (hf : Factorizations lib)
    {i j : ℕ} (hn : n = (i + 1) + j + 1) {st st' : State 𝕜} (hst : Inv p mps mpo fs n md wd ex (i + 1) j st)
    (hst' : Inv p mps mpo fs n md wd ex i (j + 1) st') (hs : oneLeft lib p mps mpo (i + 1) st = some st') :
    energy p mps mpo (i + 1) st ≤ energy p mps mpo i st' := by
  have hi : i + 1 < n := by omega
  obtain ⟨hlen, hl, hr⟩ := hst
  obtain ⟨l, ls, e1, C, hl, _⟩ := hl.cons
  obtain ⟨r, rs, e2, h2⟩ := hr.cons
  rw [show n - j = i + 1 + 1 by omega] at h2
  obtain ⟨C', hr, _⟩ := h2
  rw [oneLeft, e1, e2] at hs
  obtain rfl := (Option.some.inj hs).symm
  obtain ⟨hlen', hl', hr'⟩ := hst'
  obtain ⟨l', ls', e1', C1, hl', _⟩ := hl'.cons
  obtain ⟨r', rs', e2', h2'⟩ := hr'.cons
  rw [show n - (j + 1) = i + 1 by omega] at h2'
  obtain ⟨C2, hr', _⟩ := h2'
  rw [energy_eq h hi e1 e2 hl hr, energy_eq h (by omega) e1' e2' hl' hr']
  have m := one_left_elem h hi hl hr
  dsimp only at m hl' hr' hlen' ⊢
  obtain ⟨m1, m2⟩ := m
  obtain ⟨k, s1, s2, _, s3, s4⟩ := qr3 hf m1
  generalize hq : (lib.qr (oneSiteLeft (rightHalf p (mps.getD (i + 1) nil) (mpo.getD (i + 1) nil) r) l) 2) = qr at *
  obtain ⟨v1, v2⟩ := transpose_210 s1
  generalize hq' : transpose [2, 1, 0] qr.1 = q at *
  have hget : (st.res.set (i + 1) q).getD (i + 1) nil = q := by
    rw [List.getD_eq_getElem _ _ (by simpa [hlen] using hi)]; simp
  have hk : k = C2 := by
    have h5 := (rows_orth h hi hlen' hr' (by rwa [List.drop_set_of_lt (by omega)] : REnv p _ _ ((st.res.set (i + 1) q).drop (i + 1 + 1)) _ _ _ C' r)).1
    rw [hget, v1] at h5
    simpa using (List.cons.inj h5).1
  subst hk
  rw [← bond_eq_right h hi hlen v1 (fun m hm m' hm' => by simpa only [v2] using s3 m hm m' hm') (R := fun m c => qr.2.elem [m, c]) (C := C) (fun c' hc' x hx c hc => by
    simp only [v2]
    rw [s4 c' hc' x hx c hc, m2 c hc x c' hc']; rfl)]
  obtain ⟨o1, o2⟩ := cols_orth h (i := i) (by omega) hlen' hl'
    (by rwa [List.take_set_of_le le_rfl] : LEnv p _ _ ((st.res.set (i + 1) q).take (i + 1)).reverse _ _ _ C l)
  exact bond_le_left h (by omega) hlen' k o1 o2

/-- the norm does not decrease in a sweep -/
theorem sweep1_energy {ex : Prop} (h : Chain p mps mpo fs n md wd xd) (hn : 1 ≤ n) {lib : Lib 𝕜} (hf : Factorizations lib)
    {st : State 𝕜} (hst : Inv p mps mpo fs n md wd ex 0 (n - 1) st) :
    ∃ st', sweep1 lib p mps mpo st = some st' ∧ Inv p mps mpo fs n md wd ex 0 (n - 1) st' ∧
      energy p mps mpo 0 st ≤ energy p mps mpo 0 st' := by
  let I : ℕ → ℕ → State 𝕜 → Prop := fun i j s => Inv p mps mpo fs n md wd ex i j s ∧ energy p mps mpo 0 st ≤ energy p mps mpo i s
  obtain ⟨s1, h1, h2⟩ := upTo_inv I (f := oneRight lib p mps mpo) (T := n - 1)
    (fun i j st hT hi => by
      obtain ⟨s, a, b⟩ := oneRight_inv h hf (by omega) hi.1
      exact ⟨s, a, b, hi.2.trans (oneRight_energy h hf (by omega) hi.1 b a)⟩) (n - 1) le_rfl st ⟨hst, le_rfl⟩
  obtain ⟨s2, h3, h4, h5⟩ := downFrom_inv I (f := oneLeft lib p mps mpo) (T := n - 1)
    (fun i j st hT hi => by
      obtain ⟨s, a, b⟩ := oneLeft_inv h hf (by omega) hi.1
      exact ⟨s, a, b, hi.2.trans (oneLeft_energy h hf (by omega) hi.1 b a)⟩) (n - 1) _ (by omega) s1 h2
  exact ⟨s2, by rw [sweep1, h.len, h1]; exact h3, h4, h5⟩

theorem iterate1_energy {ex : Prop} (h : Chain p mps mpo fs n md wd xd) (hn : 1 ≤ n) {lib : Lib 𝕜} (hf : Factorizations lib)
    (tol : ℝ) : ∀ (k k' : ℕ), k ≤ k' → ∀ (last : Option ℝ) (st : State 𝕜), Inv p mps mpo fs n md wd ex 0 (n - 1) st →
    ∃ st' st'', iterate1 lib p mps mpo tol k last st = some st' ∧ iterate1 lib p mps mpo tol k' last st = some st'' ∧
      Inv p mps mpo fs n md wd ex 0 (n - 1) st' ∧ Inv p mps mpo fs n md wd ex 0 (n - 1) st'' ∧
      energy p mps mpo 0 st ≤ energy p mps mpo 0 st' ∧ energy p mps mpo 0 st' ≤ energy p mps mpo 0 st'' := by
  intro k k'
  induction k' generalizing k with
  | zero =>
    intro hk last st hst
    obtain rfl : k = 0 := by omega
    exact ⟨st, st, rfl, rfl, hst, hst, le_rfl, le_rfl⟩
  | succ k' ih =>
    intro hk last st hst
    obtain ⟨s1, a1, a2, a3⟩ := sweep1_energy h hn hf hst
    cases k with
    | zero =>
      simp only [iterate1, a1, Option.bind_some]
      split
      · exact ⟨st, s1, rfl, rfl, hst, a2, le_rfl, a3⟩
      · obtain ⟨_, s3, _, b2, _, b4, b5, b6⟩ := ih 0 (by omega) (some s1.rNorm) s1 a2
        exact ⟨st, s3, rfl, b2, hst, b4, le_rfl, a3.trans (b5.trans b6)⟩
    | succ k =>
      simp only [iterate1, a1, Option.bind_some]
      split
      · exact ⟨s1, s1, rfl, rfl, a2, a2, a3, le_rfl⟩
      · obtain ⟨s2, s3, b1, b2, b3, b4, b5, b6⟩ := ih k (by omega) (some s1.rNorm) s1 a2
        exact ⟨s2, s3, b1, b2, b3, b4, a3.trans b5, b6⟩

/-- the norm of the result -/
theorem final1_norm {ex : Prop} (h : Chain p mps mpo fs n md wd xd) (hn : 1 ≤ n) {st st' : State 𝕜}
    (hst : Inv p mps mpo fs n md wd ex 0 (n - 1) st) (hs : final1 p mps mpo st = some st') {first : Tn 𝕜} {rest : List (Tn 𝕜)}
    {B : ℕ} (hf : finalize st'.res = first :: rest) (hb : first.shape = [1, fs.getD 0 0, B]) :
    ∑ x ∈ Finset.range (fs.getD 0 0), ∑ c ∈ Finset.range B, ‖first.elem [0, x, c]‖ ^ 2 = energy p mps mpo 0 st := by
  obtain ⟨hlen, hl, hr⟩ := hst
  obtain ⟨l, ls, e1, _⟩ := hl.cons
  obtain ⟨r, rs, e2, _⟩ := hr.cons
  rw [final1, e1, e2] at hs
  obtain rfl := (Option.some.inj hs).symm
  obtain ⟨a, as, e3⟩ : ∃ a as, st.res = a :: as := List.exists_cons_of_ne_nil (by rintro h0; rw [h0] at hlen; simp at hlen; omega)
  dsimp only at hf
  rw [e3, List.set_cons_zero] at hf
  obtain rfl : dag (oneSiteRight (leftHalf p l (mps.getD 0 nil) (mpo.getD 0 nil)) r) = first := (List.cons.inj hf).1
  generalize hM : oneSiteRight (leftHalf p l (mps.getD 0 nil) (mpo.getD 0 nil)) r = M at *
  have hb : M.shape = [1, fs.getD 0 0, B] := hb
  simp only [energy, e1, e2, List.headD_cons, hM, hb, List.getD_cons_zero, List.getD_cons_succ, Finset.sum_range_one]
  rw [Finset.sum_comm]
  refine Finset.sum_congr rfl fun c _ => Finset.sum_congr rfl fun x _ => ?_
  change ‖(starRingEnd 𝕜) (M.elem [0, x, c])‖ ^ 2 = _
  rw [RCLike.norm_conj]

end

/-- more iterations give a result with a larger norm -/
theorem variational1_mono {p : Pos} {mps mpo : List (Tn 𝕜)} {ds fs : List ℕ} {lib : Libs 𝕜}
    (hf : ∀ te dmin dmax, Factorizations (lib te dmin dmax)) (te : ℝ) (dmin dmax : ℕ)
    (tol : ℝ) {k k' : ℕ} (hk : k ≤ k') (h1 : Shp mps 1 ds) (h2 : RShp p mpo 1 ds fs) (hn : 2 ≤ mps.length) :
    ∃ md wd res res', variational1 lib te dmin dmax tol k p mps mpo = some (finalize res) ∧
      variational1 lib te dmin dmax tol k' p mps mpo = some (finalize res') ∧
      Best p mps mpo fs md wd False res ∧ Best p mps mpo fs md wd False res' ∧
      ∀ first rest B first' rest' B', finalize res = first :: rest → first.shape = [1, fs.getD 0 0, B] →
        finalize res' = first' :: rest' → first'.shape = [1, fs.getD 0 0, B'] →
        ∑ x ∈ Finset.range (fs.getD 0 0), ∑ c ∈ Finset.range B, ‖first.elem [0, x, c]‖ ^ 2 ≤
          ∑ x ∈ Finset.range (fs.getD 0 0), ∑ c ∈ Finset.range B', ‖first'.elem [0, x, c]‖ ^ 2 := by
  obtain ⟨md, wd, hc⟩ := chain_of h1 h2
  obtain ⟨g1, g2, g3⟩ := initGuess_spec hf 0 dmax dmax h1 h2 (by rintro rfl; simp at hn)
  obtain ⟨s0, a1, a2⟩ := start_inv (ex := False) hc hn g1 g2 False.elim
  obtain ⟨s1, b1, b2⟩ := sweep2_inv hc hn (hf te dmax dmax) False.elim a2
  obtain ⟨s2, tmp3, c1, _, c3⟩ := final2_inv hc hn (hf te dmin dmax) False.elim b2
  obtain ⟨s3, s3', d1, d1', d2, d2', _, d3⟩ := iterate1_energy hc (by omega) (hf te dmin dmax) tol k k' hk none _ c3
  obtain ⟨s4, e1, e2⟩ := final1_inv hc (by omega) d2
  obtain ⟨s4', e1', e2'⟩ := final1_inv hc (by omega) d2'
  refine ⟨md, wd, s4.res, s4'.res, ?_, ?_, e2, e2', ?_⟩
  · rw [variational1, a1]
    simp only [Option.bind_eq_bind, Option.bind_some, b1, c1, d1, e1]
    rfl
  · rw [variational1, a1]
    simp only [Option.bind_eq_bind, Option.bind_some, b1, c1, d1', e1']
    rfl
  · intro first rest B first' rest' B' q1 q2 q3 q4
    rw [final1_norm hc (by omega) d2 e1 q1 q2, final1_norm hc (by omega) d2' e1' q3 q4]
    exact d3

end

end QLPeps.BmpsVar
