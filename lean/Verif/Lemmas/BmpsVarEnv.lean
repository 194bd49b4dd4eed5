import Verif.Model.BmpsVar
import Verif.Lemmas.BmpsAbsorb

/-! # The environments of the variational compressions -/

namespace QLPeps.BmpsVar

open QLPeps.Contractor QLPeps.Sweep QLPeps.Bmps QLPeps.Box
open QLPeps.Peps (Tn Lib rot contract contractN transpose dag)

noncomputable section

variable {𝕜 : Type*} [RCLike 𝕜]

/-- the dimension of the leg towards the preceding tensor -/
def prevDim (p : Pos) (t : Tn 𝕜) : ℕ :=
  match p with
  | .down => t.shape.getD 0 0
  | .left => t.shape.getD 3 0
  | .right => t.shape.getD 1 0
  | .up => t.shape.getD 2 0

theorem FShape.prevDim {p : Pos} {t : Tn 𝕜} {a x b y : ℕ} (h : FShape p t a x b y) :
    prevDim p t = a := by
  cases p <;> simp only [FShape] at h <;> simp [BmpsVar.prevDim, h]

/-- product of the chain and the layer, from the left legs `m`, `w` on -/
def tv (p : Pos) : List (Tn 𝕜) → List (Tn 𝕜) → List ℕ → ℕ → ℕ → 𝕜
  | e :: es, t :: ts, y :: ys, m, w =>
    ∑ u ∈ Finset.range (e.shape.getD 1 0), ∑ v ∈ Finset.range (nextDim p t),
      ∑ k ∈ Finset.range (e.shape.getD 2 0), e.elem [m, u, k] * fe p t w u v y * tv p es ts ys k v
  | _, _, _, _, _ => 1

/-- product of the chain and the layer up to the right legs `m`, `w`; the lists are reversed -/
def ltv (p : Pos) : List (Tn 𝕜) → List (Tn 𝕜) → List ℕ → ℕ → ℕ → 𝕜
  | e :: es, t :: ts, y :: ys, m, w =>
    ∑ v ∈ Finset.range (prevDim p t), ∑ u ∈ Finset.range (e.shape.getD 1 0),
      ∑ k ∈ Finset.range (e.shape.getD 0 0), e.elem [k, u, m] * fe p t v u w y * ltv p es ts ys k v
  | _, _, _, _, _ => 1

/-- the reversed beginning of a chain -/
def ShpL : List (Tn 𝕜) → ℕ → List ℕ → Prop
  | [], b, ds => b = 1 ∧ ds = []
  | e :: es, b, ds => ∃ d a ds', ds = d :: ds' ∧ e.shape = [a, d, b] ∧ ShpL es a ds'

/-- the reversed beginning of a layer -/
def RShpL (p : Pos) : List (Tn 𝕜) → ℕ → List ℕ → List ℕ → Prop
  | [], b, ds, fs => b = 1 ∧ ds = [] ∧ fs = []
  | t :: ts, b, ds, fs => ∃ x a y ds' fs', ds = x :: ds' ∧ fs = y :: fs' ∧ FShape p t a x b y ∧
      RShpL p ts a ds' fs'

theorem tv_eq (p : Pos) (es : List (Tn 𝕜)) : ∀ (ts : List (Tn 𝕜)) (M W : ℕ) (ds fs : List ℕ),
    Shp es M ds → RShp p ts W ds fs → ∀ ys ∈ box fs, ∀ m w, tv p es ts ys m w =
      ∑ xs ∈ box ds, mv es xs m * rv p ts xs ys w := by
  induction es with
  | nil =>
    intro ts M W ds fs h1 h2 ys hys m w
    obtain ⟨rfl, rfl⟩ := h1
    rw [sum_box_nil]
    simp [tv, mv, rv]
  | cons e es ih =>
    intro ts M W ds fs h1 h2 ys hys m w
    obtain ⟨d, b, ds', rfl, h3, h4⟩ := h1
    cases ts with
    | nil => obtain ⟨_, h, _⟩ := h2; exact absurd h (by simp)
    | cons t ts =>
    obtain ⟨x, b', y, ds'', fs', h, rfl, h5, h6⟩ := h2
    obtain ⟨rfl, rfl⟩ : x = d ∧ ds'' = ds' := by simpa using h.symm
    obtain ⟨y, ys, rfl, hy, hys⟩ := mem_box_cons.1 hys
    rw [sum_box_cons, tv, h3]
    simp only [List.getD_cons_succ, List.getD_cons_zero, mv, rv, h3]
    refine Finset.sum_congr rfl fun u _ => ?_
    simp only [ih ts b b' ds'' fs' h4 h6 ys hys, Finset.mul_sum, Finset.sum_mul]
    rw [pull2]
    refine Finset.sum_congr rfl fun xs _ => Finset.sum_congr rfl fun v _ =>
      Finset.sum_congr rfl fun k _ => ?_
    ring

/-! ## elements of the contractions -/

theorem c2_n {t s : Tn 𝕜} {A B C D a x b y : ℕ} (ht : t.shape = [A, B, C, D]) (p : Pos)
    (hs : FShape p s a x b y) :
    (contract2 t 1 s (num p)).shape = [D, A, y, a] ∧
    ∀ i j k l, (contract2 t 1 s (num p)).elem [i, j, k, l] =
      ∑ u ∈ Finset.range B, ∑ v ∈ Finset.range C, t.elem [j, u, v, i] * fe p s l u v k := by
  obtain ⟨sh, g⟩ := t
  obtain rfl : sh = _ := ht
  obtain ⟨sh, h⟩ := s
  cases p <;> obtain rfl : sh = _ := hs <;> exact ⟨rfl, fun _ _ _ _ => rfl⟩

theorem rightHalf_elem {e t r : Tn 𝕜} {M X M' W W' Y C : ℕ} (p : Pos) (he : e.shape = [M, X, M'])
    (ht : FShape p t W X W' Y) (hr : r.shape = [M', W', C]) :
    (rightHalf p e t r).shape = [C, M, Y, W] ∧
    ∀ c m y w, (rightHalf p e t r).elem [c, m, y, w] =
      ∑ u ∈ Finset.range X, ∑ v ∈ Finset.range W', (∑ k ∈ Finset.range M', e.elem [m, u, k] *
        r.elem [k, v, c]) * fe p t w u v y := by
  have t1 : (contract e 2 r 0).shape = [M, X, W', C] ∧ ∀ i x v z, (contract e 2 r 0).elem [i, x, v, z] =
      ∑ q ∈ Finset.range M', e.elem [i, x, q] * r.elem [q, v, z] := by
    obtain ⟨sh, g⟩ := e
    obtain rfl : sh = _ := he
    obtain ⟨sh, h⟩ := r
    obtain rfl : sh = _ := hr
    exact ⟨rfl, fun _ _ _ _ => rfl⟩
  obtain ⟨h1, h2⟩ := c2_n t1.1 p ht
  refine ⟨h1, fun c m y w => ?_⟩
  rw [rightHalf, h2]
  simp only [t1.2]

theorem leftHalf_elem {e t l : Tn 𝕜} {M X M' W W' Y L : ℕ} (p : Pos) (hl : l.shape = [L, W, M])
    (he : e.shape = [M, X, M']) (ht : FShape p t W X W' Y) :
    (leftHalf p l e t).shape = [M', L, W', Y] ∧
    ∀ m q w y, (leftHalf p l e t).elem [m, q, w, y] =
      ∑ v ∈ Finset.range W, ∑ u ∈ Finset.range X, (∑ k ∈ Finset.range M, l.elem [q, v, k] *
        e.elem [k, u, m]) * fe p t v u w y := by
  have t1 : (contract l 2 e 0).shape = [L, W, X, M'] ∧ ∀ i x v z, (contract l 2 e 0).elem [i, x, v, z] =
      ∑ q ∈ Finset.range M, l.elem [i, x, q] * e.elem [q, v, z] := by
    obtain ⟨sh, g⟩ := e
    obtain rfl : sh = _ := he
    obtain ⟨sh, h⟩ := l
    obtain rfl : sh = _ := hl
    exact ⟨rfl, fun _ _ _ _ => rfl⟩
  obtain ⟨h1, h2⟩ := c2_1 t1.1 p ht
  refine ⟨h1, fun c m y w => ?_⟩
  rw [leftHalf, h2]
  simp only [t1.2]

theorem growRight_elem {t a : Tn 𝕜} {C M Y W Q : ℕ} (ht : t.shape = [C, M, Y, W]) (ha : a.shape = [Q, Y, C]) :
    (growRight t a).shape = [M, W, Q] ∧ ∀ m w q, (growRight t a).elem [m, w, q] =
      ∑ y ∈ Finset.range Y, ∑ c ∈ Finset.range C, t.elem [c, m, y, w] * a.elem [q, y, c] := by
  obtain ⟨sh, g⟩ := t
  obtain rfl : sh = _ := ht
  obtain ⟨sh, h⟩ := a
  obtain rfl : sh = _ := ha
  exact ⟨rfl, fun _ _ _ => rfl⟩

theorem growLeft_elem {t a : Tn 𝕜} {M L W Y Q : ℕ} (ht : t.shape = [M, L, W, Y]) (ha : a.shape = [L, Y, Q]) :
    (growLeft t a).shape = [Q, W, M] ∧ ∀ q w m, (growLeft t a).elem [q, w, m] =
      ∑ l ∈ Finset.range L, ∑ y ∈ Finset.range Y, t.elem [m, l, w, y] * a.elem [l, y, q] := by
  obtain ⟨sh, g⟩ := t
  obtain rfl : sh = _ := ht
  obtain ⟨sh, h⟩ := a
  obtain rfl : sh = _ := ha
  exact ⟨rfl, fun _ _ _ => rfl⟩

theorem twoSite_elem {a b : Tn 𝕜} {M L W Y C Y' : ℕ} (ha : a.shape = [M, L, W, Y]) (hb : b.shape = [C, M, Y', W]) :
    (twoSite a b).shape = [L, Y, C, Y'] ∧ ∀ l y c y', (twoSite a b).elem [l, y, c, y'] =
      (starRingEnd 𝕜) (∑ w ∈ Finset.range W, ∑ m ∈ Finset.range M, a.elem [m, l, w, y] * b.elem [c, m, y', w]) := by
  obtain ⟨sh, g⟩ := a
  obtain rfl : sh = _ := ha
  obtain ⟨sh, h⟩ := b
  obtain rfl : sh = _ := hb
  exact ⟨rfl, fun _ _ _ _ => rfl⟩

theorem oneSiteRight_elem {a r : Tn 𝕜} {M L W Y C : ℕ} (ha : a.shape = [M, L, W, Y]) (hr : r.shape = [M, W, C]) :
    (oneSiteRight a r).shape = [L, Y, C] ∧ ∀ l y c, (oneSiteRight a r).elem [l, y, c] =
      (starRingEnd 𝕜) (∑ m ∈ Finset.range M, ∑ w ∈ Finset.range W, a.elem [m, l, w, y] * r.elem [m, w, c]) := by
  obtain ⟨sh, g⟩ := a
  obtain rfl : sh = _ := ha
  obtain ⟨sh, h⟩ := r
  obtain rfl : sh = _ := hr
  exact ⟨rfl, fun _ _ _ => rfl⟩

theorem oneSiteLeft_elem {a l : Tn 𝕜} {M L W Y C : ℕ} (ha : a.shape = [C, M, Y, W]) (hl : l.shape = [L, W, M]) :
    (oneSiteLeft a l).shape = [C, Y, L] ∧ ∀ c y q, (oneSiteLeft a l).elem [c, y, q] =
      (starRingEnd 𝕜) (∑ w ∈ Finset.range W, ∑ m ∈ Finset.range M, a.elem [c, m, y, w] * l.elem [q, w, m]) := by
  obtain ⟨sh, g⟩ := a
  obtain rfl : sh = _ := ha
  obtain ⟨sh, h⟩ := l
  obtain rfl : sh = _ := hl
  exact ⟨rfl, fun _ _ _ => rfl⟩

/-! ## environments -/

/-- `r` is the right environment of the sites in the lists -/
structure REnv (p : Pos) (es ts as : List (Tn 𝕜)) (fs : List ℕ) (M W C : ℕ) (r : Tn 𝕜) : Prop where
  shape : r.shape = [M, W, C]
  chain : Shp as C fs
  elem : ∀ m < M, ∀ w < W, ∀ c < C, r.elem [m, w, c] = ∑ ys ∈ box fs, tv p es ts ys m w * mv as ys c
  iso : ∀ c < C, ∀ c' < C, ∑ ys ∈ box fs, mv as ys c * (starRingEnd 𝕜) (mv as ys c') = if c = c' then 1 else 0

/-- `l` is the left environment of the sites in the (reversed) lists -/
structure LEnv (p : Pos) (es ts as : List (Tn 𝕜)) (fs : List ℕ) (M W C : ℕ) (l : Tn 𝕜) : Prop where
  shape : l.shape = [C, W, M]
  chain : ShpL as C fs
  elem : ∀ m < M, ∀ w < W, ∀ c < C, l.elem [c, w, m] = ∑ ys ∈ box fs, ltv p es ts ys m w * mvr as ys c
  iso : ∀ c < C, ∀ c' < C, ∑ ys ∈ box fs, (starRingEnd 𝕜) (mvr as ys c) * mvr as ys c' = if c = c' then 1 else 0

/-- Parseval's identity for an orthonormal family -/
theorem parseval {α : Type*} {S : Finset α} {C : ℕ} {F : ℕ → α → 𝕜}
    (h : ∀ c < C, ∀ c' < C, ∑ x ∈ S, F c x * (starRingEnd 𝕜) (F c' x) = if c = c' then 1 else 0)
    (A B : ℕ → 𝕜) :
    ∑ x ∈ S, (∑ c ∈ Finset.range C, A c * F c x) * (starRingEnd 𝕜) (∑ c ∈ Finset.range C, B c * F c x) =
      ∑ c ∈ Finset.range C, A c * (starRingEnd 𝕜) (B c) := by
  calc _ = ∑ c ∈ Finset.range C, ∑ c' ∈ Finset.range C, A c * (starRingEnd 𝕜) (B c') *
        ∑ x ∈ S, F c x * (starRingEnd 𝕜) (F c' x) := by
        simp only [map_sum, map_mul, Finset.sum_mul, Finset.mul_sum]
        conv_rhs => rw [Finset.sum_comm]
        rw [Finset.sum_comm]
        refine Finset.sum_congr rfl fun c _ => ?_
        rw [Finset.sum_comm]
        exact Finset.sum_congr rfl fun c' _ => Finset.sum_congr rfl fun x _ => by ring
    _ = _ := by
        refine Finset.sum_congr rfl fun c hc => ?_
        rw [Finset.sum_eq_single c]
        · rw [h c (Finset.mem_range.1 hc) c (Finset.mem_range.1 hc), if_pos rfl, mul_one]
        · intro c' hc' hne
          rw [h c (Finset.mem_range.1 hc) c' (Finset.mem_range.1 hc'), if_neg hne.symm, mul_zero]
        · intro hn; exact absurd hc hn

theorem REnv.nil (p : Pos) : REnv (𝕜 := 𝕜) p [] [] [] [] 1 1 1 (corner [1, 1, 1]) where
  shape := rfl
  chain := ⟨rfl, rfl⟩
  elem m hm w hw c hc := by
    obtain ⟨rfl, rfl, rfl⟩ : m = 0 ∧ w = 0 ∧ c = 0 := by omega
    rw [sum_box_nil]
    simp [corner, tv, mv]
  iso c hc c' hc' := by
    obtain ⟨rfl, rfl⟩ : c = 0 ∧ c' = 0 := by omega
    rw [sum_box_nil]
    simp [mv]

theorem LEnv.nil (p : Pos) : LEnv (𝕜 := 𝕜) p [] [] [] [] 1 1 1 (corner [1, 1, 1]) where
  shape := rfl
  chain := ⟨rfl, rfl⟩
  elem m hm w hw c hc := by
    obtain ⟨rfl, rfl, rfl⟩ : m = 0 ∧ w = 0 ∧ c = 0 := by omega
    rw [sum_box_nil]
    simp [corner, ltv, mvr]
  iso c hc c' hc' := by
    obtain ⟨rfl, rfl⟩ : c = 0 ∧ c' = 0 := by omega
    rw [sum_box_nil]
    simp [mvr]

theorem REnv.half {p : Pos} {es ts as : List (Tn 𝕜)} {fs : List ℕ} {M' W' C : ℕ} {r : Tn 𝕜}
    (h : REnv p es ts as fs M' W' C r) {e t : Tn 𝕜} {M X W Y : ℕ} (he : e.shape = [M, X, M'])
    (ht : FShape p t W X W' Y) :
    ∀ c < C, ∀ m y w, (rightHalf p e t r).elem [c, m, y, w] =
      ∑ ys ∈ box fs, tv p (e :: es) (t :: ts) (y :: ys) m w * mv as ys c := by
  intro c hc m y w
  rw [(rightHalf_elem p he ht h.shape).2]
  simp only [tv, he, ht.nextDim, List.getD_cons_succ, List.getD_cons_zero, Finset.sum_mul]
  rw [← pull3]
  refine Finset.sum_congr rfl fun u _ => Finset.sum_congr rfl fun v hv =>
    Finset.sum_congr rfl fun k hk => ?_
  rw [h.elem k (Finset.mem_range.1 hk) v (Finset.mem_range.1 hv) c hc, Finset.mul_sum, Finset.sum_mul]
  exact Finset.sum_congr rfl fun ys _ => by ring

theorem LEnv.half {p : Pos} {es ts as : List (Tn 𝕜)} {fs : List ℕ} {M W C : ℕ} {l : Tn 𝕜}
    (h : LEnv p es ts as fs M W C l) {e t : Tn 𝕜} {M' X W' Y : ℕ} (he : e.shape = [M, X, M'])
    (ht : FShape p t W X W' Y) :
    ∀ m, ∀ c < C, ∀ w y, (leftHalf p l e t).elem [m, c, w, y] =
      ∑ ys ∈ box fs, ltv p (e :: es) (t :: ts) (y :: ys) m w * mvr as ys c := by
  intro m c hc w y
  rw [(leftHalf_elem p h.shape he ht).2]
  simp only [ltv, he, FShape.prevDim ht, List.getD_cons_succ, List.getD_cons_zero, Finset.sum_mul]
  rw [← pull3]
  refine Finset.sum_congr rfl fun v hv => Finset.sum_congr rfl fun u _ =>
    Finset.sum_congr rfl fun k hk => ?_
  rw [h.elem k (Finset.mem_range.1 hk) v (Finset.mem_range.1 hv) c hc, Finset.sum_mul, Finset.sum_mul]
  exact Finset.sum_congr rfl fun ys _ => by ring

theorem REnv.grow {p : Pos} {es ts as : List (Tn 𝕜)} {fs : List ℕ} {M' W' C : ℕ} {r : Tn 𝕜}
    (h : REnv p es ts as fs M' W' C r) {e t a : Tn 𝕜} {M X W Y Q : ℕ} (he : e.shape = [M, X, M'])
    (ht : FShape p t W X W' Y) (ha : a.shape = [Q, Y, C])
    (hi : ∀ q < Q, ∀ q' < Q, ∑ y ∈ Finset.range Y, ∑ c ∈ Finset.range C,
      a.elem [q, y, c] * (starRingEnd 𝕜) (a.elem [q', y, c]) = if q = q' then 1 else 0) :
    REnv p (e :: es) (t :: ts) (a :: as) (Y :: fs) M W Q (growRight (rightHalf p e t r) a) := by
  obtain ⟨g1, g2⟩ := growRight_elem (rightHalf_elem p he ht h.shape).1 ha
  refine ⟨g1, ⟨Y, C, fs, rfl, ha, h.chain⟩, ?_, ?_⟩
  · intro m _ w _ q _
    rw [g2, sum_box_cons]
    refine Finset.sum_congr rfl fun y _ => ?_
    simp only [mv, ha, List.getD_cons_succ, List.getD_cons_zero, Finset.mul_sum]
    rw [Finset.sum_comm]
    refine Finset.sum_congr rfl fun c hc => ?_
    rw [h.half he ht c (Finset.mem_range.1 hc), Finset.sum_mul]
    exact Finset.sum_congr rfl fun ys _ => by ring
  · intro q hq q' hq'
    rw [sum_box_cons, ← hi q hq q' hq']
    refine Finset.sum_congr rfl fun y _ => ?_
    simp only [mv, ha, List.getD_cons_succ, List.getD_cons_zero]
    exact parseval h.iso (fun c => a.elem [q, y, c]) (fun c => a.elem [q', y, c])

theorem LEnv.iso' {p : Pos} {es ts as : List (Tn 𝕜)} {fs : List ℕ} {M W C : ℕ} {l : Tn 𝕜}
    (h : LEnv p es ts as fs M W C l) : ∀ c < C, ∀ c' < C,
      ∑ ys ∈ box fs, mvr as ys c * (starRingEnd 𝕜) (mvr as ys c') = if c = c' then 1 else 0 := by
  intro c hc c' hc'
  have := h.iso c' hc' c hc
  simp only [eq_comm (a := c') (b := c)] at this
  rw [← this]
  exact Finset.sum_congr rfl fun ys _ => mul_comm _ _

theorem LEnv.grow {p : Pos} {es ts as : List (Tn 𝕜)} {fs : List ℕ} {M W C : ℕ} {l : Tn 𝕜}
    (h : LEnv p es ts as fs M W C l) {e t a : Tn 𝕜} {M' X W' Y Q : ℕ} (he : e.shape = [M, X, M'])
    (ht : FShape p t W X W' Y) (ha : a.shape = [C, Y, Q])
    (hi : ∀ q < Q, ∀ q' < Q, ∑ c ∈ Finset.range C, ∑ y ∈ Finset.range Y,
      (starRingEnd 𝕜) (a.elem [c, y, q]) * a.elem [c, y, q'] = if q = q' then 1 else 0) :
    LEnv p (e :: es) (t :: ts) (a :: as) (Y :: fs) M' W' Q (growLeft (leftHalf p l e t) a) := by
  obtain ⟨g1, g2⟩ := growLeft_elem (leftHalf_elem p h.shape he ht).1 ha
  refine ⟨g1, ⟨Y, C, fs, rfl, ha, h.chain⟩, ?_, ?_⟩
  · intro m _ w _ q _
    rw [g2, sum_box_cons, Finset.sum_comm]
    refine Finset.sum_congr rfl fun y _ => ?_
    simp only [mvr, ha, List.getD_cons_zero, Finset.mul_sum]
    rw [Finset.sum_comm]
    refine Finset.sum_congr rfl fun c hc => ?_
    rw [h.half he ht m c (Finset.mem_range.1 hc), Finset.sum_mul]
    exact Finset.sum_congr rfl fun ys _ => by ring
  · intro q hq q' hq'
    rw [sum_box_cons, ← hi q hq q' hq']
    refine Eq.trans (Finset.sum_congr rfl fun y _ => ?_) Finset.sum_comm
    simp only [mvr, ha, List.getD_cons_zero]
    have := parseval (F := fun c ys => mvr as ys c) h.iso' (fun c => a.elem [c, y, q'])
      (fun c => a.elem [c, y, q])
    exact Eq.trans (Finset.sum_congr rfl fun ys _ => mul_comm _ _)
      (this.trans (Finset.sum_congr rfl fun c _ => mul_comm _ _))

end

end QLPeps.BmpsVar
