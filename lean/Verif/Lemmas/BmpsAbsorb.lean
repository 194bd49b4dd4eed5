import Verif.Lemmas.BmpsOps
import Verif.Spec.Bmps

/-! # The value of a boundary MPS, and what the multiplication with a transfer MPO does to it -/

namespace QLPeps.Bmps

open QLPeps.Contractor QLPeps.Sweep QLPeps.Box
open QLPeps.Peps (Tn Lib rot contract contractN transpose)
open QLPeps.Peps.Spec (Exact Valid)
open QLPeps.Bmps.Spec (Lossless)

noncomputable section

variable {𝕜 : Type*} [RCLike 𝕜]

/-- a chain of tensors `[a, d, b]` with outer legs `ds`, first bond of dimension `a`, last of
dimension one -/
def Shp : List (Tn 𝕜) → ℕ → List ℕ → Prop
  | [], a, ds => a = 1 ∧ ds = []
  | e :: es, a, ds => ∃ d b ds', ds = d :: ds' ∧ e.shape = [a, d, b] ∧ Shp es b ds'

/-- a layer of site tensors seen from side `p` -/
def RShp (p : Pos) : List (Tn 𝕜) → ℕ → List ℕ → List ℕ → Prop
  | [], a, ds, fs => a = 1 ∧ ds = [] ∧ fs = []
  | t :: ts, a, ds, fs => ∃ x b y ds' fs', ds = x :: ds' ∧ fs = y :: fs' ∧ FShape p t a x b y ∧
      RShp p ts b ds' fs'

/-- value of a chain at the outer indices `xs`, from its first bond `a` -/
def mv : List (Tn 𝕜) → List ℕ → ℕ → 𝕜
  | e :: es, x :: xs, a => ∑ b ∈ Finset.range (e.shape.getD 2 0), e.elem [a, x, b] * mv es xs b
  | _, _, _ => 1

/-- value of a chain read backwards -/
def mvr : List (Tn 𝕜) → List ℕ → ℕ → 𝕜
  | e :: es, x :: xs, a => ∑ b ∈ Finset.range (e.shape.getD 0 0), e.elem [b, x, a] * mvr es xs b
  | _, _, _ => 1

/-- the dimension of the leg towards the following side -/
def nextDim (p : Pos) (t : Tn 𝕜) : ℕ :=
  match p with
  | .down => t.shape.getD 2 0
  | .left => t.shape.getD 1 0
  | .right => t.shape.getD 3 0
  | .up => t.shape.getD 0 0

theorem FShape.nextDim {p : Pos} {t : Tn 𝕜} {a x b y : ℕ} (h : FShape p t a x b y) :
    nextDim p t = b := by
  cases p <;> simp only [FShape] at h <;> simp [Bmps.nextDim, h]

/-- value of a layer -/
def rv (p : Pos) : List (Tn 𝕜) → List ℕ → List ℕ → ℕ → 𝕜
  | t :: ts, x :: xs, y :: ys, a => ∑ b ∈ Finset.range (nextDim p t), fe p t a x b y * rv p ts xs ys b
  | _, _, _, _ => 1

section

variable {M α β γ δ ε : Type*} [AddCommMonoid M]

theorem pull2 (A : Finset α) (B : Finset β) (C : Finset γ) (f : α → β → γ → M) :
    ∑ a ∈ A, ∑ b ∈ B, ∑ c ∈ C, f a b c = ∑ c ∈ C, ∑ a ∈ A, ∑ b ∈ B, f a b c :=
  (Finset.sum_congr rfl fun _ _ => Finset.sum_comm).trans Finset.sum_comm

theorem pull3 (A : Finset α) (B : Finset β) (C : Finset γ) (D : Finset δ) (f : α → β → γ → δ → M) :
    ∑ a ∈ A, ∑ b ∈ B, ∑ c ∈ C, ∑ d ∈ D, f a b c d = ∑ d ∈ D, ∑ a ∈ A, ∑ b ∈ B, ∑ c ∈ C, f a b c d :=
  (Finset.sum_congr rfl fun _ _ => pull2 ..).trans Finset.sum_comm

theorem pull4 (A : Finset α) (B : Finset β) (C : Finset γ) (D : Finset δ) (E : Finset ε)
    (f : α → β → γ → δ → ε → M) :
    ∑ a ∈ A, ∑ b ∈ B, ∑ c ∈ C, ∑ d ∈ D, ∑ e ∈ E, f a b c d e =
      ∑ e ∈ E, ∑ a ∈ A, ∑ b ∈ B, ∑ c ∈ C, ∑ d ∈ D, f a b c d e :=
  (Finset.sum_congr rfl fun _ _ => pull3 ..).trans Finset.sum_comm

end

theorem mulLoop_spec {lib : Lib 𝕜} (hl : Exact lib) (p : Pos) (es : List (Tn 𝕜)) (hne : es ≠ []) :
    ∀ (r : Tn 𝕜) (ts : List (Tn 𝕜)) (M A D : ℕ) (ds fs : List ℕ),
      r.shape = [M, A, D] → Shp es D ds → RShp p ts A ds fs →
      Shp (mulLoop lib p r es ts) M fs ∧
      ∀ ys ∈ box fs, ∀ m < M, mv (mulLoop lib p r es ts) ys m =
        ∑ α ∈ Finset.range A, ∑ β ∈ Finset.range D, r.elem [m, α, β] *
          ∑ xs ∈ box ds, mv es xs β * rv p ts xs ys α := by
  induction es with
  | nil => exact absurd rfl hne
  | cons e es ih =>
    intro r ts M A D ds fs hr he ht
    obtain ⟨X, D', ds', rfl, he1, he2⟩ := he
    cases ts with
    | nil => obtain ⟨_, h, _⟩ := ht; exact absurd h (by simp)
    | cons t ts =>
    obtain ⟨X', b, Y, ds'', fs', h, rfl, ht1, ht2⟩ := ht
    obtain ⟨rfl, rfl⟩ : X' = X ∧ ds'' = ds' := by simpa using h.symm
    obtain ⟨h3, h4⟩ := mul_tmp2 he1 hr p ht1
    cases es with
    | nil =>
      obtain ⟨rfl, rfl⟩ := he2
      cases ts with
      | cons _ _ => obtain ⟨_, _, _, _, _, h, _⟩ := ht2; exact absurd h (by simp)
      | nil =>
      obtain ⟨rfl, _, rfl⟩ := ht2
      obtain ⟨h5, h6⟩ := mul_last h3
      refine ⟨⟨Y, 1, [], rfl, h5, rfl, rfl⟩, ?_⟩
      intro ys hys m hm
      obtain ⟨y, ys, rfl, hy, hys⟩ := mem_box_cons.1 hys
      obtain rfl := mem_box_nil.1 hys
      change ∑ b ∈ Finset.range ((contractN _ [0, 2] _ [0, 1]).shape.getD 2 0), _ * _ = _
      rw [h5]
      simp only [List.getD_cons_succ, List.getD_cons_zero, Finset.range_one, Finset.sum_singleton]
      rw [h6, h4]
      simp only [sum_box_cons, sum_box_nil, mv, rv, he1, ht1.nextDim, List.getD_cons_succ,
        List.getD_cons_zero, Finset.range_one, Finset.sum_singleton, mul_one, Finset.mul_sum,
        Finset.sum_mul]
      refine Finset.sum_congr rfl fun u _ => ?_
      rw [Finset.sum_comm]
      refine Finset.sum_congr rfl fun z _ => Finset.sum_congr rfl fun v _ => ?_
      ring
    | cons e' es =>
      obtain ⟨h5, h6⟩ := transpose_1320 h3
      set T := transpose [1, 3, 2, 0] (contract2 (contract e 0 r 2) 3 t (prePost p)) with hT
      obtain ⟨k, hq1, hq2, hq3⟩ := hl.qr T 2
      rw [h5] at hq1 hq2 hq3
      obtain ⟨i1, i2⟩ := ih (by simp) (lib.qr T 2).2 ts k b D' ds'' fs' hq2 he2 ht2
      have hml : mulLoop lib p r (e :: e' :: es) (t :: ts) =
        (lib.qr T 2).1 :: mulLoop lib p (lib.qr T 2).2 (e' :: es) ts := rfl
      rw [hml]
      refine ⟨⟨Y, k, fs', rfl, hq1, i1⟩, ?_⟩
      intro ys hys m hm
      obtain ⟨y, ys, rfl, hy, hys⟩ := mem_box_cons.1 hys
      simp only [mv, hq1]
      simp only [List.take_succ_cons, List.take_zero, List.cons_append, List.nil_append,
        List.getD_cons_succ, List.getD_cons_zero]
      have key : ∀ α ∈ Finset.range b, ∀ β ∈ Finset.range D',
          ∑ n ∈ Finset.range k, (lib.qr T 2).1.elem [m, y, n] * (lib.qr T 2).2.elem [n, α, β] =
            ∑ u ∈ Finset.range A, ∑ v ∈ Finset.range X',
        (∑ z ∈ Finset.range D, e.elem [z, v, β] * r.elem [m, u, z]) * fe p t u v α y := by
        intro α hα β hβ
        rw [← h4, ← h6]
        exact hq3 [m, y] [α, β] (.cons hm (.cons hy .nil))
          (.cons (Finset.mem_range.1 hα) (.cons (Finset.mem_range.1 hβ) .nil))
      calc ∑ n ∈ Finset.range k, (lib.qr T 2).1.elem [m, y, n] *
            mv (mulLoop lib p (lib.qr T 2).2 (e' :: es) ts) ys n
          = ∑ n ∈ Finset.range k, (lib.qr T 2).1.elem [m, y, n] *
              ∑ α ∈ Finset.range b, ∑ β ∈ Finset.range D', (lib.qr T 2).2.elem [n, α, β] *
                ∑ xs ∈ box ds'', mv (e' :: es) xs β * rv p ts xs ys α :=
            Finset.sum_congr rfl fun n hn => by rw [i2 ys hys n (Finset.mem_range.1 hn)]
        _ = ∑ α ∈ Finset.range b, ∑ β ∈ Finset.range D', (∑ n ∈ Finset.range k,
              (lib.qr T 2).1.elem [m, y, n] * (lib.qr T 2).2.elem [n, α, β]) *
                ∑ xs ∈ box ds'', mv (e' :: es) xs β * rv p ts xs ys α := by
            simp only [Finset.sum_mul, Finset.mul_sum (s := Finset.range b),
              Finset.mul_sum (s := Finset.range D')]
            rw [Finset.sum_comm]
            refine Finset.sum_congr rfl fun α _ => ?_
            rw [Finset.sum_comm]
            refine Finset.sum_congr rfl fun β _ => Finset.sum_congr rfl fun n _ => ?_
            ring
        _ = ∑ α ∈ Finset.range b, ∑ β ∈ Finset.range D', (∑ u ∈ Finset.range A,
              ∑ v ∈ Finset.range X',
              (∑ z ∈ Finset.range D, e.elem [z, v, β] * r.elem [m, u, z]) * fe p t u v α y) *
                ∑ xs ∈ box ds'', mv (e' :: es) xs β * rv p ts xs ys α :=
            Finset.sum_congr rfl fun α hα => Finset.sum_congr rfl fun β hβ => by
              rw [key α hα β hβ]
        _ = ∑ α ∈ Finset.range b, ∑ β ∈ Finset.range D', ∑ xs ∈ box ds'', ∑ u ∈ Finset.range A,
              ∑ v ∈ Finset.range X', ∑ z ∈ Finset.range D,
              e.elem [z, v, β] * r.elem [m, u, z] * fe p t u v α y *
                (mv (e' :: es) xs β * rv p ts xs ys α) := by
            simp only [Finset.sum_mul, Finset.mul_sum (s := box ds'')]
        _ = ∑ u ∈ Finset.range A, ∑ z ∈ Finset.range D, ∑ v ∈ Finset.range X',
              ∑ xs ∈ box ds'', ∑ β ∈ Finset.range D', ∑ α ∈ Finset.range b,
              e.elem [z, v, β] * r.elem [m, u, z] * fe p t u v α y *
                (mv (e' :: es) xs β * rv p ts xs ys α) := by
            rw [pull3]
            refine Finset.sum_congr rfl fun u _ => ?_
            rw [pull4]
            refine Finset.sum_congr rfl fun z _ => ?_
            rw [pull3]
            refine Finset.sum_congr rfl fun v _ => ?_
            rw [pull2]
            exact Finset.sum_congr rfl fun xs _ => Finset.sum_comm
        _ = _ := by
            simp only [sum_box_cons, mv, rv, he1, ht1.nextDim, List.getD_cons_succ,
              List.getD_cons_zero, Finset.sum_mul]
            simp only [Finset.mul_sum]
            refine Finset.sum_congr rfl fun u _ => Finset.sum_congr rfl fun z _ =>
              Finset.sum_congr rfl fun v _ => Finset.sum_congr rfl fun xs _ =>
              Finset.sum_congr rfl fun β _ => Finset.sum_congr rfl fun α _ => ?_
            ring

theorem canoLoop_spec {lib : Lib 𝕜} (hl : Lossless lib) (es : List (Tn 𝕜)) :
    ∀ (A : ℕ) (ds : List ℕ), Shp es A ds → Shp (canoLoop lib es) A ds ∧
      ∀ xs ∈ box ds, ∀ a < A, mv (canoLoop lib es) xs a = mv es xs a := by
  induction es with
  | nil => intro A ds h; exact ⟨h, fun _ _ _ _ => rfl⟩
  | cons e es ih =>
    cases es with
    | nil => intro A ds h; exact ⟨h, fun _ _ _ _ => rfl⟩
    | cons e' es =>
    intro A ds h
    obtain ⟨X, L, ds', rfl, h1, h2⟩ := h
    obtain ⟨i1, i2⟩ := ih L ds' h2
    cases hc : canoLoop lib (e' :: es) with
    | nil =>
      rw [hc] at i1
      obtain ⟨_, rfl⟩ := i1
      obtain ⟨_, _, _, h, _⟩ := h2
      exact absurd h (by simp)
    | cons f fs =>
      rw [hc] at i1 i2
      obtain ⟨Y, R, ds'', rfl, j1, j2⟩ := i1
      obtain ⟨s1, s2⟩ := hl.exact.svd_shape f 1
      rw [j1] at s1 s2
      have s3 := hl.exact.svd f 1 (hl.err f)
      rw [j1] at s3
      obtain ⟨u1, u2⟩ := cano_u s1
      obtain ⟨v1, v2⟩ := cano_prev h1 u1
      have hcl : canoLoop lib (e :: e' :: es) =
          contractN e [2] (contractN (lib.svd f 1).u [1] (lib.svd f 1).s.ten [0]) [0] ::
            (lib.svd f 1).vt :: fs := by
        rw [canoLoop, hc]; rfl
      rw [hcl]
      refine ⟨⟨X, _, _, rfl, v1, Y, R, ds'', rfl, s2, j2⟩, ?_⟩
      intro xs hxs a ha
      obtain ⟨x, xs, rfl, hx, hxs⟩ := mem_box_cons.1 hxs
      have hxs' := hxs
      obtain ⟨y, ys, rfl, hy, hys⟩ := mem_box_cons.1 hxs
      have hmv : mv (e :: e' :: es) (x :: y :: ys) a =
          ∑ l ∈ Finset.range L, e.elem [a, x, l] * mv (f :: fs) (y :: ys) l := by
        rw [mv, h1]
        exact Finset.sum_congr rfl fun l hl => by rw [i2 _ hxs' l (Finset.mem_range.1 hl)]
      rw [hmv]
      simp only [mv, v1, s2, j1, List.getD_cons_succ, List.getD_cons_zero, List.drop_succ_cons,
        List.drop_zero]
      set K := (lib.svd f 1).s.dim with hK
      calc ∑ b ∈ Finset.range K, (contractN e [2]
              (contractN (lib.svd f 1).u [1] (lib.svd f 1).s.ten [0]) [0]).elem [a, x, b] *
            ∑ c ∈ Finset.range R, (lib.svd f 1).vt.elem [b, y, c] * mv fs ys c
          = ∑ b ∈ Finset.range K, ∑ c ∈ Finset.range R, ∑ l ∈ Finset.range L,
              e.elem [a, x, l] * ((lib.svd f 1).u.elem [l, b] * ((lib.svd f 1).s.val b : 𝕜) *
                (lib.svd f 1).vt.elem [b, y, c]) * mv fs ys c := by
            refine Finset.sum_congr rfl fun b hb => ?_
            rw [v2, Finset.mul_sum]
            refine Finset.sum_congr rfl fun c _ => ?_
            rw [Finset.sum_mul]
            refine Finset.sum_congr rfl fun l _ => ?_
            rw [u2 l b (Finset.mem_range.1 hb)]
            ring
        _ = ∑ l ∈ Finset.range L, ∑ c ∈ Finset.range R, ∑ b ∈ Finset.range K,
              e.elem [a, x, l] * ((lib.svd f 1).u.elem [l, b] * ((lib.svd f 1).s.val b : 𝕜) *
                (lib.svd f 1).vt.elem [b, y, c]) * mv fs ys c := by
            rw [pull2]
            exact Finset.sum_congr rfl fun l _ => Finset.sum_comm
        _ = _ := by
            refine Finset.sum_congr rfl fun l hl => ?_
            rw [Finset.mul_sum]
            refine Finset.sum_congr rfl fun c hc => ?_
            rw [← Finset.sum_mul, ← Finset.mul_sum]
            have := s3 [l] [y, c] (.cons (Finset.mem_range.1 hl) .nil)
              (.cons hy (.cons (Finset.mem_range.1 hc) .nil))
            simp only [List.cons_append, List.nil_append] at this
            rw [this, mul_assoc]

/-- Multiplying a boundary MPS with a transfer MPO (in storage order) gives the product. -/
theorem mul_spec {lib : Lib 𝕜} (hl : Lossless lib) (p : Pos) (es ts : List (Tn 𝕜)) (ds fs : List ℕ)
    (hes : Shp es 1 ds) (hts : RShp p ts 1 ds fs) (hne : es ≠ []) :
    let r := transpose [2, 0, 1] (indexCombine (𝕜 := 𝕜) ((ts.headD nil).shape.getD (prePost p) 0)
      ((es.headD nil).shape.getD 0 0))
    Shp (canoLoop lib (mulLoop lib p r es ts)) 1 fs ∧
    ∀ ys ∈ box fs, mv (canoLoop lib (mulLoop lib p r es ts)) ys 0 =
      ∑ xs ∈ box ds, mv es xs 0 * rv p ts xs ys 0 := by
  intro r
  have h1 : (es.headD nil).shape.getD 0 0 = 1 := by
    cases es with
    | nil => exact absurd rfl hne
    | cons e es => obtain ⟨_, _, _, _, h, _⟩ := hes; simp [h]
  have h2 : (ts.headD nil).shape.getD (prePost p) 0 = 1 := by
    cases ts with
    | nil =>
      obtain ⟨_, rfl, _⟩ := hts
      cases es with
      | nil => exact absurd rfl hne
      | cons e es => obtain ⟨_, _, _, h, _⟩ := hes; exact absurd h (by simp)
    | cons t ts =>
      obtain ⟨_, _, _, _, _, _, _, h, _⟩ := hts
      cases p <;> simp only [FShape] at h <;> simp [h, prePost, num]
  obtain ⟨r1, r2⟩ := combine_r (𝕜 := 𝕜) _ _ h2 h1
  obtain ⟨a1, a2⟩ := mulLoop_spec hl.exact p es hne r ts 1 1 1 ds fs (by rw [r1, h1, h2]) hes hts
  obtain ⟨b1, b2⟩ := canoLoop_spec hl _ 1 fs a1
  refine ⟨b1, fun ys hys => ?_⟩
  rw [b2 ys hys 0 (by omega), a2 ys hys 0 (by omega)]
  simp only [Finset.range_one, Finset.sum_singleton]
  rw [r2, one_mul]

/-- the multiplication returns tensors with the right shapes, whatever it truncates -/
def Shaped (lib : Lib 𝕜) : Prop :=
  ∀ (p : Pos) (es ts : List (Tn 𝕜)) (ds fs : List ℕ), Shp es 1 ds → RShp p ts 1 ds fs → es ≠ [] →
    Shp (canoLoop lib (mulLoop lib p (transpose [2, 0, 1] (indexCombine (𝕜 := 𝕜)
      ((ts.headD nil).shape.getD (prePost p) 0) ((es.headD nil).shape.getD 0 0))) es ts)) 1 fs

theorem _root_.QLPeps.Bmps.Spec.Lossless.shaped {lib : Lib 𝕜} (hl : Lossless lib) : Shaped lib :=
  fun p es ts ds fs h1 h2 h3 => (mul_spec hl p es ts ds fs h1 h2 h3).1

/-! ## reversal -/

theorem mvr_reverse_aux (es : List (Tn 𝕜)) : ∀ (acc : List (Tn 𝕜)) (A : ℕ) (ds xs axs : List ℕ),
    Shp es A ds → xs.length = es.length →
    ∑ a ∈ Finset.range A, mvr acc axs a * mv es xs a =
      mvr (es.reverse ++ acc) (xs.reverse ++ axs) 0 := by
  induction es with
  | nil =>
    intro acc A ds xs axs h hx
    obtain ⟨rfl, rfl⟩ := h
    obtain rfl : xs = [] := by simpa using hx
    simp [mv]
  | cons e es ih =>
    intro acc A ds xs axs h hx
    obtain ⟨d, b, ds', rfl, h1, h2⟩ := h
    cases xs with
    | nil => simp at hx
    | cons x xs =>
    rw [List.reverse_cons, List.append_assoc, List.reverse_cons, List.append_assoc,
      List.cons_append, List.nil_append, List.cons_append, List.nil_append,
      ← ih (e :: acc) b ds' xs (x :: axs) h2 (by simpa using hx)]
    simp only [mv, mvr, h1, List.getD_cons_succ, List.getD_cons_zero, Finset.mul_sum,
      Finset.sum_mul]
    rw [Finset.sum_comm]
    refine Finset.sum_congr rfl fun c _ => Finset.sum_congr rfl fun a _ => ?_
    ring

theorem mvr_reverse {es : List (Tn 𝕜)} {ds xs : List ℕ} (h : Shp es 1 ds)
    (hx : xs.length = es.length) : mvr es.reverse xs.reverse 0 = mv es xs 0 := by
  have := mvr_reverse_aux es [] 1 ds xs [] h hx
  simp only [Finset.range_one, Finset.sum_singleton, List.append_nil] at this
  rw [← this]
  simp [mvr]

theorem rv_reverse_aux (p : Pos) (ts : List (Tn 𝕜)) :
    ∀ (acc : List (Tn 𝕜)) (A : ℕ) (ds fs xs axs ys ays : List ℕ),
    RShp p ts A ds fs → xs.length = ts.length → ys.length = ts.length →
    ∑ a ∈ Finset.range A, rv (opposite p) acc ays axs a * rv p ts xs ys a =
      rv (opposite p) (ts.reverse ++ acc) (ys.reverse ++ ays) (xs.reverse ++ axs) 0 := by
  induction ts with
  | nil =>
    intro acc A ds fs xs axs ys ays h hx hy
    obtain ⟨rfl, rfl, rfl⟩ := h
    obtain rfl : xs = [] := by simpa using hx
    obtain rfl : ys = [] := by simpa using hy
    simp [rv]
  | cons t ts ih =>
    intro acc A ds fs xs axs ys ays h hx hy
    obtain ⟨x', b, y', ds', fs', rfl, rfl, h1, h2⟩ := h
    cases xs with
    | nil => simp at hx
    | cons x xs =>
    cases ys with
    | nil => simp at hy
    | cons y ys =>
    simp only [List.reverse_cons, List.append_assoc, List.cons_append, List.nil_append]
    rw [← ih (t :: acc) b ds' fs' xs (x :: axs) ys (y :: ays) h2 (by simpa using hx)
      (by simpa using hy)]
    have h3 := (FShape_opposite.2 h1).nextDim
    simp only [rv, h1.nextDim, h3, Finset.mul_sum, Finset.sum_mul]
    rw [Finset.sum_comm]
    refine Finset.sum_congr rfl fun c _ => Finset.sum_congr rfl fun a _ => ?_
    rw [fe_opposite]
    ring

theorem rv_reverse {p : Pos} {ts : List (Tn 𝕜)} {ds fs xs ys : List ℕ} (h : RShp p ts 1 ds fs)
    (hx : xs.length = ts.length) (hy : ys.length = ts.length) :
    rv (opposite p) ts.reverse ys.reverse xs.reverse 0 = rv p ts xs ys 0 := by
  have := rv_reverse_aux p ts [] 1 ds fs xs [] ys [] h hx hy
  simp only [Finset.range_one, Finset.sum_singleton, List.append_nil] at this
  rw [← this]
  simp [rv]

end

end QLPeps.Bmps
