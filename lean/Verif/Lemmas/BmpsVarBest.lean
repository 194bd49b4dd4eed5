import Verif.Lemmas.BmpsVarInit
import Verif.Lemmas.BmpsNet

/-! # The results of the variational compressions -/

namespace QLPeps.BmpsVar

open QLPeps.Contractor QLPeps.Sweep QLPeps.Bmps QLPeps.Box
open QLPeps.Peps (Tn Lib rot contract contractN transpose dag sumCoors)
open QLPeps.BmpsVar.Spec (Factorizations Keeps IsMps IsMpo amp rowAmp product overlap normSq order)

noncomputable section

variable {𝕜 : Type*} [RCLike 𝕜]

/-! ## the specification in terms of the lemmas -/

theorem amp_eq (es : List (Tn 𝕜)) : ∀ (xs : List ℕ) (a : ℕ), amp es xs a = mv es xs a := by
  induction es with
  | nil => intro xs a; simp [amp, mv]
  | cons e es ih =>
    intro xs a
    cases xs with
    | nil => simp [amp, mv]
    | cons x xs => simp [amp, mv, ih]

theorem isMps_iff (es : List (Tn 𝕜)) : ∀ (a : ℕ) (ds : List ℕ), IsMps es a ds ↔ Shp es a ds := by
  induction es with
  | nil => intro a ds; rfl
  | cons e es ih => intro a ds; simp only [IsMps, Shp, ih]

theorem order_shape (p : Pos) (t : Tn 𝕜) (a x b y : ℕ) : t.shape = order p a x b y ↔ FShape p t a x b y := by
  cases p <;> rfl

theorem isMpo_iff (p : Pos) (ts : List (Tn 𝕜)) : ∀ (a : ℕ) (ds fs : List ℕ), IsMpo p ts a ds fs ↔ RShp p ts a ds fs := by
  induction ts with
  | nil => intro a ds fs; rfl
  | cons t ts ih => intro a ds fs; simp only [IsMpo, RShp, ih, order_shape]

theorem layer_eq (p : Pos) (ts : List (Tn 𝕜)) : ∀ (xs ys : List ℕ) (a : ℕ), rowAmp p ts xs ys a = rv p ts xs ys a := by
  induction ts with
  | nil => intro xs ys a; simp [rowAmp, rv]
  | cons t ts ih =>
    intro xs ys a
    cases xs with
    | nil => simp [rowAmp, rv]
    | cons x xs =>
      cases ys with
      | nil => simp [rowAmp, rv]
      | cons y ys =>
        simp only [rowAmp, rv, ih]
        cases p <;> rfl

theorem product_eq {p : Pos} {mps mpo : List (Tn 𝕜)} {ds fs ys : List ℕ} (h1 : Shp mps 1 ds) (h2 : RShp p mpo 1 ds fs)
    (hys : ys ∈ box fs) : product p mps mpo ds ys = tv p mps mpo ys 0 0 := by
  rw [tv_eq p mps mpo 1 1 ds fs h1 h2 ys hys, product, sumCoors_box]
  simp only [amp_eq, layer_eq]

/-! ## projections -/

theorem pythagoras {α : Type*} {S : Finset α} {C : ℕ} {F : ℕ → α → 𝕜}
    (h : ∀ c < C, ∀ c' < C, ∑ x ∈ S, F c x * (starRingEnd 𝕜) (F c' x) = if c = c' then 1 else 0)
    (T : α → 𝕜) (A B : ℕ → 𝕜) (hA : ∀ c < C, A c = ∑ x ∈ S, (starRingEnd 𝕜) (F c x) * T x) :
    ∑ x ∈ S, ‖T x - ∑ c ∈ Finset.range C, B c * F c x‖ ^ 2 =
      ∑ x ∈ S, ‖T x - ∑ c ∈ Finset.range C, A c * F c x‖ ^ 2 + ∑ c ∈ Finset.range C, ‖A c - B c‖ ^ 2 := by
  have e0 : ∀ z : 𝕜, ((‖z‖ ^ 2 : ℝ) : 𝕜) = z * (starRingEnd 𝕜) z := fun z => by
    rw [RCLike.mul_conj]; push_cast; rfl
  apply RCLike.ofReal_injective (K := 𝕜)
  simp only [RCLike.ofReal_add, RCLike.ofReal_sum, e0]
  generalize hE : (fun x => T x - ∑ c ∈ Finset.range C, A c * F c x) = E
  have hEx : ∀ x, T x - ∑ c ∈ Finset.range C, A c * F c x = E x := fun x => by rw [← hE]
  have ho : ∀ c < C, ∑ x ∈ S, E x * (starRingEnd 𝕜) (F c x) = 0 := by
    intro c hc
    simp only [← hEx, sub_mul, Finset.sum_sub_distrib]
    rw [sub_eq_zero]
    have : ∑ x ∈ S, (∑ c ∈ Finset.range C, A c * F c x) * (starRingEnd 𝕜) (F c x) = A c := by
      simp only [Finset.sum_mul]
      rw [Finset.sum_comm]
      rw [Finset.sum_eq_single c]
      · simp only [mul_assoc, ← Finset.mul_sum]
        rw [h c hc c hc, if_pos rfl, mul_one]
      · intro c' hc' hne
        simp only [mul_assoc, ← Finset.mul_sum]
        rw [h c' (Finset.mem_range.1 hc') c hc, if_neg hne, mul_zero]
      · intro hn; exact absurd (Finset.mem_range.2 hc) hn
    rw [this, hA c hc]
    exact Finset.sum_congr rfl fun x _ => mul_comm _ _
  have hT : ∀ x, T x - ∑ c ∈ Finset.range C, B c * F c x = E x + ∑ c ∈ Finset.range C, (A c - B c) * F c x := by
    intro x
    rw [← hEx]
    simp only [sub_mul, Finset.sum_sub_distrib]
    ring
  simp only [hT, hEx]
  rw [← parseval h (fun c => A c - B c) (fun c => A c - B c)]
  have hx1 : ∑ x ∈ S, E x * (starRingEnd 𝕜) (∑ c ∈ Finset.range C, (A c - B c) * F c x) = 0 := by
    simp only [map_sum, map_mul, Finset.mul_sum]
    rw [Finset.sum_comm]
    refine Finset.sum_eq_zero fun c hc => ?_
    have := ho c (Finset.mem_range.1 hc)
    rw [Finset.sum_congr rfl fun x _ => show E x * ((starRingEnd 𝕜) (A c - B c) * (starRingEnd 𝕜) (F c x)) =
      (starRingEnd 𝕜) (A c - B c) * (E x * (starRingEnd 𝕜) (F c x)) by ring, ← Finset.mul_sum, this, mul_zero]
  have hx2 : ∑ x ∈ S, (∑ c ∈ Finset.range C, (A c - B c) * F c x) * (starRingEnd 𝕜) (E x) = 0 := by
    have := congrArg (starRingEnd 𝕜) hx1
    rw [map_sum, map_zero] at this
    rw [← this]
    refine Finset.sum_congr rfl fun x _ => ?_
    rw [map_mul, RCLike.conj_conj, mul_comm]
  simp only [map_add, add_mul, mul_add, Finset.sum_add_distrib, hx1, hx2]
  ring

/-! ## results -/

variable {p : Pos} {mps mpo : List (Tn 𝕜)} {ds fs : List ℕ}

theorem head_mps (h1 : Shp mps 1 ds) (hne : mps ≠ []) : (mps.headD nil).shape.getD 0 0 = 1 := by
  cases mps with
  | nil => exact absurd rfl hne
  | cons e es => obtain ⟨_, _, _, _, h, _⟩ := h1; simp [h]

theorem head_mpo (h1 : Shp mps 1 ds) (h2 : RShp p mpo 1 ds fs) (hne : mps ≠ []) :
    (mpo.headD nil).shape.getD (prePost p) 0 = 1 := by
  cases mpo with
  | nil =>
    obtain ⟨_, rfl, _⟩ := h2
    cases mps with
    | nil => exact absurd rfl hne
    | cons e es => obtain ⟨_, _, _, h, _⟩ := h1; exact absurd h (by simp)
  | cons t ts =>
    obtain ⟨_, _, _, _, _, _, _, h, _⟩ := h2
    cases p <;> simp only [FShape] at h <;> simp [h, prePost, num]

theorem initGuess_spec {lib : Libs 𝕜} (hf : ∀ te dmin dmax, Factorizations (lib te dmin dmax)) (te : ℝ) (dmin dmax : ℕ)
    (h1 : Shp mps 1 ds) (h2 : RShp p mpo 1 ds fs) (hne : mps ≠ []) :
    Shp (initGuess lib te dmin dmax p mps mpo) 1 fs ∧
    (∀ g ∈ (initGuess lib te dmin dmax p mps mpo).tail, TIso g) ∧
    ((∀ e ∈ mps.tail, e.shape.getD 0 0 ≤ 2) → (∀ f : Tn 𝕜, f.shape.length = 3 → f.shape.getD 0 0 ≤ 2 → Keeps (lib 0 1 2) f 1) →
      (∀ f ∈ fs, 0 < f) → (∀ f : Tn 𝕜, f.shape.length = 3 → f.shape.getD 0 0 ≤ fs.prod → Keeps (lib te dmin dmax) f 1) →
      ∀ ys ∈ box fs, mv (initGuess lib te dmin dmax p mps mpo) ys 0 = tv p mps mpo ys 0 0) := by
  obtain ⟨a1, a2, a3⟩ := centralize_spec (hf 0 1 2) _ mps rfl 1 ds h1
  obtain ⟨b1, _, b3⟩ := canoLoop_spec' (hf 0 1 2) _ 1 ds a1
  have hlen : (canoLoop (lib 0 1 2) (centralize (lib 0 1 2) mps)).length = mps.length := by
    rw [Shp.length b1, Shp.length h1]
  rw [initGuess]
  generalize hcopy : canoLoop (lib 0 1 2) (centralize (lib 0 1 2) mps) = copy at *
  have hne' : copy ≠ [] := fun h => hne (by simpa [h] using hlen.symm)
  obtain ⟨c1, c2⟩ := mul_spec' (hf te dmin dmax) p copy mpo ds fs b1 h2 hne' _ rfl
  obtain ⟨d1, d2, d3⟩ := canoLoop_spec' (hf te dmin dmax) _ 1 fs c1
  refine ⟨d1, d2, fun hb hk2 hp hk ys hys => ?_⟩
  rw [d3 (· ≤ fs.prod) hk (by
      obtain ⟨r1, _⟩ := combine_r (𝕜 := 𝕜) ((mpo.headD nil).shape.getD (prePost p) 0)
        ((copy.headD nil).shape.getD 0 0) (head_mpo b1 h2 hne') (head_mps b1 hne')
      have := mulLoop_dims (hf te dmin dmax) p copy _ mpo 1 1 1 ds fs hp
        (by rw [r1, head_mpo b1 h2 hne', head_mps b1 hne']) b1 h2
      simpa using this) ys hys 0 (by omega), c2 ys hys,
    tv_eq p mps mpo 1 1 ds fs h1 h2 ys hys]
  refine Finset.sum_congr rfl fun xs hxs => ?_
  rw [b3 (· ≤ 2) hk2 (a2 2 hb) xs hxs 0 (by omega), a3 xs hxs 0 (by omega)]

theorem row1 {t : Tn 𝕜} {B : ℕ} (h3 : t.shape.length = 3) (h : t.shape.getD 0 0 ≤ B) : (t.shape.take 1).prod ≤ B := by
  obtain ⟨a, b, c, e⟩ := List.length_eq_three.1 h3
  rw [e] at h ⊢
  simpa using h

theorem variational2_best {lib : Libs 𝕜} (hf : ∀ te dmin dmax, Factorizations (lib te dmin dmax)) (te : ℝ) (dmin dmax : ℕ)
    (tol : ℝ) (maxIter : ℕ) (h1 : Shp mps 1 ds) (h2 : RShp p mpo 1 ds fs) (hn : 2 ≤ mps.length) (ex : Prop)
    (hb : ex → ∀ e ∈ mps.tail, e.shape.getD 0 0 ≤ 2)
    (hk2 : ex → ∀ f : Tn 𝕜, f.shape.length = 3 → f.shape.getD 0 0 ≤ 2 → Keeps (lib 0 1 2) f 1) (hp : ex → ∀ f ∈ fs, 0 < f)
    (hk : ex → ∀ (f : Tn 𝕜) n, (f.shape.take n).prod ≤ fs.prod → Keeps (lib te dmin dmax) f n) :
    ∃ md wd res, variational2 lib te dmin dmax tol maxIter p mps mpo = some (finalize res) ∧
      Best p mps mpo fs md wd ex res := by
  obtain ⟨md, wd, hc⟩ := chain_of h1 h2
  obtain ⟨g1, g2, g3⟩ := initGuess_spec hf te dmin dmax h1 h2 (by rintro rfl; simp at hn)
  obtain ⟨s0, a1, a2⟩ := start_inv (ex := ex) hc hn g1 g2 fun hex => g3 (hb hex) (hk2 hex) (hp hex) fun f h3 hf => hk hex f 1 (row1 h3 hf)
  obtain ⟨s1, b1, b2⟩ := iterate2_inv hc hn (hf te dmin dmax) (fun hex => ⟨hp hex, fun t => hk hex t 2⟩) tol maxIter none s0 a2
  obtain ⟨s2, tmp3, c1, c2, _⟩ := final2_inv hc hn (hf te dmin dmax) (fun hex => ⟨hp hex, fun t => hk hex t 2⟩) b2
  refine ⟨md, wd, s2.res, ?_, c2⟩
  rw [variational2, a1]
  simp only [Option.bind_eq_bind, Option.bind_some, b1, c1]
  rfl

theorem variational1_best {lib : Libs 𝕜} (hf : ∀ te dmin dmax, Factorizations (lib te dmin dmax)) (te : ℝ) (dmin dmax : ℕ)
    (tol : ℝ) (maxIter : ℕ) (h1 : Shp mps 1 ds) (h2 : RShp p mpo 1 ds fs) (hn : 2 ≤ mps.length) (ex : Prop)
    (hb : ex → ∀ e ∈ mps.tail, e.shape.getD 0 0 ≤ 2)
    (hk2 : ex → ∀ f : Tn 𝕜, f.shape.length = 3 → f.shape.getD 0 0 ≤ 2 → Keeps (lib 0 1 2) f 1) (hp : ex → ∀ f ∈ fs, 0 < f)
    (hk : ex → ∀ (f : Tn 𝕜) n, (f.shape.take n).prod ≤ fs.prod → Keeps (lib te dmin dmax) f n) (hk0 : ex → ∀ (f : Tn 𝕜) n, (f.shape.take n).prod ≤ fs.prod → Keeps (lib 0 dmax dmax) f n)
    (hk1 : ex → ∀ (f : Tn 𝕜) n, (f.shape.take n).prod ≤ fs.prod → Keeps (lib te dmax dmax) f n) :
    ∃ md wd res, variational1 lib te dmin dmax tol maxIter p mps mpo = some (finalize res) ∧
      Best p mps mpo fs md wd ex res := by
  obtain ⟨md, wd, hc⟩ := chain_of h1 h2
  obtain ⟨g1, g2, g3⟩ := initGuess_spec hf 0 dmax dmax h1 h2 (by rintro rfl; simp at hn)
  obtain ⟨s0, a1, a2⟩ := start_inv (ex := ex) hc hn g1 g2 fun hex => g3 (hb hex) (hk2 hex) (hp hex) fun f h3 hf => hk0 hex f 1 (row1 h3 hf)
  obtain ⟨s1, b1, b2⟩ := sweep2_inv hc hn (hf te dmax dmax) (fun hex => ⟨hp hex, fun t => hk1 hex t 2⟩) a2
  obtain ⟨s2, tmp3, c1, _, c3⟩ := final2_inv hc hn (hf te dmin dmax) (fun hex => ⟨hp hex, fun t => hk hex t 2⟩) b2
  obtain ⟨s3, d1, d2⟩ := iterate1_inv hc (by omega) (hf te dmin dmax) tol maxIter none _ c3
  obtain ⟨s4, e1, e2⟩ := final1_inv hc (by omega) d2
  refine ⟨md, wd, s4.res, ?_, e2⟩
  rw [variational1, a1]
  simp only [Option.bind_eq_bind, Option.bind_some, b1, c1, d1, e1]
  rfl

/-- what the first tensor and the others satisfy -/
theorem best_spec {md wd : ℕ → ℕ} {ex : Prop} {res : List (Tn 𝕜)} (h1 : Shp mps 1 ds) (h2 : RShp p mpo 1 ds fs)
    (hne : fs ≠ []) (h : Best p mps mpo fs md wd ex res) :
    ∃ first rest B, finalize res = first :: rest ∧ first.shape = [1, fs.getD 0 0, B] ∧ Shp (first :: rest) 1 fs ∧
      (∀ c < B, ∀ c' < B, overlap (fs.drop 1) (fun ys => amp rest ys c') (fun ys => amp rest ys c) =
        if c = c' then 1 else 0) ∧
      (∀ t : Tn 𝕜, t.shape = first.shape →
        normSq fs (fun ys => product p mps mpo ds ys - amp (t :: rest) ys 0) =
          normSq fs (fun ys => product p mps mpo ds ys - amp (first :: rest) ys 0) +
            ∑ x ∈ Finset.range (fs.getD 0 0), ∑ c ∈ Finset.range B, ‖first.elem [0, x, c] - t.elem [0, x, c]‖ ^ 2) ∧
      normSq fs (fun ys => amp (first :: rest) ys 0) =
        ∑ x ∈ Finset.range (fs.getD 0 0), ∑ c ∈ Finset.range B, ‖first.elem [0, x, c]‖ ^ 2 ∧
      (ex → ∀ ys ∈ box fs, amp (first :: rest) ys 0 = product p mps mpo ds ys) := by
  obtain ⟨a, as, B, rfl, b1, b2, b3, b4, b5⟩ := h
  obtain ⟨f0, fs, rfl⟩ := List.exists_cons_of_ne_nil hne
  simp only [List.getD_cons_zero, List.drop_succ_cons, List.drop_zero] at *
  have hR : ∀ ys c, mv (as.map dag) ys c = (starRingEnd 𝕜) (mv as ys c) := fun ys c => mv_dag as ys c
  have horth : ∀ c < B, ∀ c' < B, ∑ ys ∈ box fs, mv (as.map dag) ys c * (starRingEnd 𝕜) (mv (as.map dag) ys c') =
      if c = c' then 1 else 0 := by
    intro c hc c' hc'
    have := b3 c' hc' c hc
    simp only [eq_comm (a := c') (b := c)] at this
    rw [← this]
    refine Finset.sum_congr rfl fun ys _ => ?_
    rw [hR, hR, RCLike.conj_conj, mul_comm]
  have hamp : ∀ t : Tn 𝕜, t.shape = [1, f0, B] → ∀ x ys, amp (t :: as.map dag) (x :: ys) 0 =
      ∑ c ∈ Finset.range B, t.elem [0, x, c] * mv (as.map dag) ys c := by
    intro t ht x ys
    rw [amp_eq, mv, ht]
    rfl
  have hA : ∀ x < f0, ∀ c < B, (dag a).elem [0, x, c] =
      ∑ ys ∈ box fs, (starRingEnd 𝕜) (mv (as.map dag) ys c) * product p mps mpo ds (x :: ys) := by
    intro x hx c hc
    change (starRingEnd 𝕜) (a.elem [0, x, c]) = _
    rw [b4 x hx c hc, RCLike.conj_conj]
    refine Finset.sum_congr rfl fun ys hys => ?_
    rw [hR, RCLike.conj_conj, product_eq h1 h2 (cons_mem_box.2 ⟨hx, hys⟩)]
  refine ⟨dag a, as.map dag, B, rfl, b1, ⟨f0, B, fs, rfl, b1, shp_dag as B fs b2⟩, ?_, ?_, ?_, ?_⟩
  · intro c hc c' hc'
    rw [overlap, sumCoors_box, ← horth c hc c' hc']
    refine Finset.sum_congr rfl fun ys _ => ?_
    simp only [amp_eq, mul_comm]
  · intro t ht
    have ht : t.shape = [1, f0, B] := ht.trans b1
    simp only [normSq, sumCoors_box, sum_box_cons, hamp t ht, hamp (dag a) b1]
    rw [← Finset.sum_add_distrib]
    refine Finset.sum_congr rfl fun x hx => ?_
    exact pythagoras horth (fun ys => product p mps mpo ds (x :: ys)) (fun c => (dag a).elem [0, x, c])
      (fun c => t.elem [0, x, c]) (hA x (Finset.mem_range.1 hx))
  · simp only [normSq, sumCoors_box, sum_box_cons, hamp (dag a) b1]
    refine Finset.sum_congr rfl fun x hx => ?_
    have := parseval horth (fun c => (dag a).elem [0, x, c]) (fun c => (dag a).elem [0, x, c])
    simp only [RCLike.mul_conj] at this
    apply RCLike.ofReal_injective (K := 𝕜)
    push_cast
    exact this
  · intro hex ys hys
    obtain ⟨G, hG⟩ := b5 hex
    obtain ⟨x, ys, rfl, hx, hys⟩ := mem_box_cons.1 hys
    rw [hamp (dag a) b1, product_eq h1 h2 (cons_mem_box.2 ⟨hx, hys⟩)]
    rw [span_eq b3 (fun ys => tv p mps mpo (x :: ys) 0 0) (fun c => G x c) (fun ys hys => hG x hx ys hys) ys hys]
    refine Finset.sum_congr rfl fun c hc => ?_
    rw [hA x hx c (Finset.mem_range.1 hc), hR, mul_comm]
    congr 1
    refine Finset.sum_congr rfl fun ys' hys' => ?_
    rw [hR, RCLike.conj_conj, product_eq h1 h2 (cons_mem_box.2 ⟨hx, hys'⟩)]

end

end QLPeps.BmpsVar
