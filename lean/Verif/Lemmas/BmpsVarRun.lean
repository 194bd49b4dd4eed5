import Verif.Lemmas.BmpsVarStep

/-! # The sweeps of the variational compressions -/

namespace QLPeps.BmpsVar

open QLPeps.Contractor QLPeps.Sweep QLPeps.Bmps QLPeps.Box
open QLPeps.Peps (Tn Lib rot contract contractN transpose dag sumCoors)
open QLPeps.BmpsVar.Spec (Factorizations Keeps)

noncomputable section

variable {𝕜 : Type*} [RCLike 𝕜]

/-- the left environments of the first `0, …, k` sites -/
def LStack (P : ℕ → Tn 𝕜 → Prop) : ℕ → List (Tn 𝕜) → Prop
  | 0, ls => ∃ l, ls = [l] ∧ P 0 l
  | k + 1, ls => ∃ l ls', ls = l :: ls' ∧ P (k + 1) l ∧ LStack P k ls'

/-- the right environments of the last `0, …, j` of `n` sites -/
def RStack (n : ℕ) (P : ℕ → Tn 𝕜 → Prop) : ℕ → List (Tn 𝕜) → Prop
  | 0, rs => ∃ r, rs = [r] ∧ P n r
  | j + 1, rs => ∃ r rs', rs = r :: rs' ∧ P (n - (j + 1)) r ∧ RStack n P j rs'

theorem LStack.mono {P Q : ℕ → Tn 𝕜 → Prop} {k : ℕ} : ∀ {ls : List (Tn 𝕜)}, (∀ i ≤ k, ∀ l, P i l → Q i l) →
    LStack P k ls → LStack Q k ls := by
  induction k with
  | zero =>
    rintro ls h ⟨l, rfl, h1⟩
    exact ⟨l, rfl, h 0 le_rfl l h1⟩
  | succ k ih =>
    rintro ls h ⟨l, ls', rfl, h1, h2⟩
    exact ⟨l, ls', rfl, h _ le_rfl l h1, ih (fun i hi => h i (by omega)) h2⟩

theorem RStack.mono {n : ℕ} {P Q : ℕ → Tn 𝕜 → Prop} {j : ℕ} : ∀ {rs : List (Tn 𝕜)},
    (∀ i, n - j ≤ i → ∀ r, P i r → Q i r) → RStack n P j rs → RStack n Q j rs := by
  induction j with
  | zero =>
    rintro rs h ⟨r, rfl, h1⟩
    exact ⟨r, rfl, h n (by omega) r h1⟩
  | succ j ih =>
    rintro rs h ⟨r, rs', rfl, h1, h2⟩
    exact ⟨r, rs', rfl, h _ le_rfl r h1, ih (fun i hi => h i (by omega)) h2⟩

theorem RStack.mono_le {n : ℕ} {P Q : ℕ → Tn 𝕜 → Prop} {j : ℕ} : ∀ {rs : List (Tn 𝕜)},
    (∀ i ≤ n, ∀ r, P i r → Q i r) → RStack n P j rs → RStack n Q j rs := by
  induction j with
  | zero =>
    rintro rs h ⟨r, rfl, h1⟩
    exact ⟨r, rfl, h n le_rfl r h1⟩
  | succ j ih =>
    rintro rs h ⟨r, rs', rfl, h1, h2⟩
    exact ⟨r, rs', rfl, h _ (by omega) r h1, ih h h2⟩

theorem LStack.cons {P : ℕ → Tn 𝕜 → Prop} {k : ℕ} {ls : List (Tn 𝕜)} (h : LStack P k ls) :
    ∃ l ls', ls = l :: ls' ∧ P k l := by
  cases k with
  | zero => obtain ⟨l, rfl, h⟩ := h; exact ⟨l, [], rfl, h⟩
  | succ k => obtain ⟨l, ls', rfl, h, _⟩ := h; exact ⟨l, ls', rfl, h⟩

theorem RStack.cons {n : ℕ} {P : ℕ → Tn 𝕜 → Prop} {j : ℕ} {rs : List (Tn 𝕜)} (h : RStack n P j rs) :
    ∃ r rs', rs = r :: rs' ∧ P (n - j) r := by
  cases j with
  | zero => obtain ⟨l, rfl, h⟩ := h; exact ⟨l, [], rfl, h⟩
  | succ k => obtain ⟨l, ls', rfl, h, _⟩ := h; exact ⟨l, ls', rfl, h⟩

/-- left environments of up to `i` sites, right environments of up to `j` sites -/
structure Inv (p : Pos) (mps mpo : List (Tn 𝕜)) (fs : List ℕ) (n : ℕ) (md wd : ℕ → ℕ) (ex : Prop) (i j : ℕ)
    (st : State 𝕜) : Prop where
  len : st.res.length = n
  left : LStack (LE p mps mpo fs md wd ex · st.res) i st.lenvs
  right : RStack n (RE p mps mpo fs md wd ex · st.res) j st.renvs

variable {p : Pos} {mps mpo : List (Tn 𝕜)} {fs : List ℕ} {n : ℕ} {md wd xd : ℕ → ℕ} {ex : Prop}

theorem pushLeft_inv (h : Chain p mps mpo fs n md wd xd) {lib : Lib 𝕜} (hf : Factorizations lib)
    (hk : ex → (∀ f ∈ fs, 0 < f) ∧ ∀ t : Tn 𝕜, (t.shape.take 2).prod ≤ fs.prod → Keeps lib t 2) {i j : ℕ} (hn : n = i + (j + 1) + 2) {st : State 𝕜}
    (hst : Inv p mps mpo fs n md wd ex i (j + 1) st) :
    ∃ st', pushLeft lib p mps mpo i st = some st' ∧ Inv p mps mpo fs n md wd ex (i + 1) j st' := by
  obtain ⟨hlen, hl, hr⟩ := hst
  obtain ⟨l, ls, e1, h1⟩ := hl.cons
  obtain ⟨r, rs, e2, h2, h3⟩ := hr
  rw [show n - (j + 1) = i + 2 by omega] at h2
  refine ⟨_, by rw [pushLeft, e1, e2], ?_⟩
  refine ⟨by simpa using hlen, ⟨_, _, rfl, ?_, ?_⟩, ?_⟩
  · exact push_left h hf hk (by omega) hlen h1 h2 _ _ _ rfl rfl rfl
  · rw [← e1]
    exact hl.mono fun k hk l hl => (LE.set hk).2 hl
  · exact h3.mono fun k hk r hr => (RE.set (by omega)).2 hr

theorem pushRight_inv (h : Chain p mps mpo fs n md wd xd) {lib : Lib 𝕜} (hf : Factorizations lib)
    (hk : ex → (∀ f ∈ fs, 0 < f) ∧ ∀ t : Tn 𝕜, (t.shape.take 2).prod ≤ fs.prod → Keeps lib t 2) {i j : ℕ} (hn : n = (i + 1) + j + 2) {st : State 𝕜}
    (hst : Inv p mps mpo fs n md wd ex (i + 1) j st) :
    ∃ st', pushRight lib p mps mpo (i + 1) st = some st' ∧ Inv p mps mpo fs n md wd ex i (j + 1) st' := by
  obtain ⟨hlen, hl, hr⟩ := hst
  obtain ⟨r, rs, e2, h2⟩ := hr.cons
  obtain ⟨l, ls, e1, h1, h3⟩ := hl
  rw [show n - j = (i + 1) + 2 by omega] at h2
  refine ⟨_, by rw [pushRight, e1, e2], ?_⟩
  refine ⟨by simpa using hlen, ?_, ⟨_, _, rfl, ?_, ?_⟩⟩
  · exact h3.mono fun k hk r hr => (LE.set (by omega)).2 hr
  · rw [show n - (j + 1) = (i + 1) + 1 by omega]
    exact push_right h hf hk (by omega) hlen h1 h2 _ _ _ rfl rfl rfl
  · rw [← e2]
    exact hr.mono fun k hk l hl => (RE.set (by omega)).2 hl

theorem oneRight_inv (h : Chain p mps mpo fs n md wd xd) {lib : Lib 𝕜} (hf : Factorizations lib)
    {i j : ℕ} (hn : n = i + (j + 1) + 1) {st : State 𝕜} (hst : Inv p mps mpo fs n md wd ex i (j + 1) st) :
    ∃ st', oneRight lib p mps mpo i st = some st' ∧ Inv p mps mpo fs n md wd ex (i + 1) j st' := by
  obtain ⟨hlen, hl, hr⟩ := hst
  obtain ⟨l, ls, e1, h1⟩ := hl.cons
  obtain ⟨r, rs, e2, h2, h3⟩ := hr
  rw [show n - (j + 1) = i + 1 by omega] at h2
  refine ⟨_, by rw [oneRight, e1, e2], ?_⟩
  refine ⟨by simpa using hlen, ⟨_, _, rfl, ?_, ?_⟩, ?_⟩
  · exact one_right h hf (by omega) hlen h1 h2 _ _ rfl rfl
  · rw [← e1]
    exact hl.mono fun k hk l hl => (LE.set hk).2 hl
  · exact h3.mono fun k hk r hr => (RE.set (by omega)).2 hr

theorem oneLeft_inv (h : Chain p mps mpo fs n md wd xd) {lib : Lib 𝕜} (hf : Factorizations lib)
    {i j : ℕ} (hn : n = (i + 1) + j + 1) {st : State 𝕜} (hst : Inv p mps mpo fs n md wd ex (i + 1) j st) :
    ∃ st', oneLeft lib p mps mpo (i + 1) st = some st' ∧ Inv p mps mpo fs n md wd ex i (j + 1) st' := by
  obtain ⟨hlen, hl, hr⟩ := hst
  obtain ⟨r, rs, e2, h2⟩ := hr.cons
  obtain ⟨l, ls, e1, h1, h3⟩ := hl
  rw [show n - j = (i + 1) + 1 by omega] at h2
  refine ⟨_, by rw [oneLeft, e1, e2], ?_⟩
  refine ⟨by simpa using hlen, ?_, ⟨_, _, rfl, ?_, ?_⟩⟩
  · exact h3.mono fun k hk r hr => (LE.set (by omega)).2 hr
  · rw [show n - (j + 1) = i + 1 by omega]
    exact one_left h hf (by omega) hlen h1 h2 _ _ rfl rfl
  · rw [← e2]
    exact hr.mono fun k hk l hl => (RE.set (by omega)).2 hl

theorem upTo_inv (I : ℕ → ℕ → State 𝕜 → Prop) {f : ℕ → State 𝕜 → Option (State 𝕜)} {T : ℕ}
    (hstep : ∀ i j st, T = i + (j + 1) → I i (j + 1) st → ∃ st', f i st = some st' ∧ I (i + 1) j st') :
    ∀ k ≤ T, ∀ st, I 0 T st → ∃ st', upTo f k st = some st' ∧ I k (T - k) st' := by
  intro k
  induction k with
  | zero => intro _ st h; exact ⟨st, rfl, h⟩
  | succ k ih =>
    intro hk st h
    obtain ⟨st', h1, h2⟩ := ih (by omega) st h
    rw [show T - k = (T - (k + 1)) + 1 by omega] at h2
    obtain ⟨st'', h3, h4⟩ := hstep k _ st' (by omega) h2
    exact ⟨st'', by rw [upTo, h1]; exact h3, h4⟩

theorem downFrom_inv (I : ℕ → ℕ → State 𝕜 → Prop) {f : ℕ → State 𝕜 → Option (State 𝕜)} {T : ℕ}
    (hstep : ∀ i j st, T = (i + 1) + j → I (i + 1) j st → ∃ st', f (i + 1) st = some st' ∧ I i (j + 1) st') :
    ∀ k j, T = k + j → ∀ st, I k j st → ∃ st', downFrom f k st = some st' ∧ I 0 T st' := by
  intro k
  induction k with
  | zero => intro j hj st h; exact ⟨st, rfl, by rwa [show T = j by omega]⟩
  | succ k ih =>
    intro j hj st h
    obtain ⟨st', h1, h2⟩ := hstep k j st hj h
    obtain ⟨st'', h3, h4⟩ := ih (j + 1) (by omega) st' h2
    exact ⟨st'', by rw [downFrom, h1]; exact h3, h4⟩

theorem sweep2_inv (h : Chain p mps mpo fs n md wd xd) (hn : 2 ≤ n) {lib : Lib 𝕜} (hf : Factorizations lib)
    (hk : ex → (∀ f ∈ fs, 0 < f) ∧ ∀ t : Tn 𝕜, (t.shape.take 2).prod ≤ fs.prod → Keeps lib t 2) {st : State 𝕜} (hst : Inv p mps mpo fs n md wd ex 0 (n - 2) st) :
    ∃ st', sweep2 lib p mps mpo st = some st' ∧ Inv p mps mpo fs n md wd ex 0 (n - 2) st' := by
  obtain ⟨s1, h1, h2⟩ := upTo_inv (Inv p mps mpo fs n md wd ex) (f := pushLeft lib p mps mpo) (T := n - 2)
    (fun i j st hT hi => pushLeft_inv h hf hk (by omega) hi) (n - 2) le_rfl st hst
  obtain ⟨s2, h3, h4⟩ := downFrom_inv (Inv p mps mpo fs n md wd ex) (f := pushRight lib p mps mpo) (T := n - 2)
    (fun i j st hT hi => pushRight_inv h hf hk (by omega) hi) (n - 2) _ (by omega) s1 h2
  exact ⟨s2, by rw [sweep2, h.len, h1]; exact h3, h4⟩

theorem sweep1_inv (h : Chain p mps mpo fs n md wd xd) (hn : 1 ≤ n) {lib : Lib 𝕜} (hf : Factorizations lib)
    {st : State 𝕜} (hst : Inv p mps mpo fs n md wd ex 0 (n - 1) st) :
    ∃ st', sweep1 lib p mps mpo st = some st' ∧ Inv p mps mpo fs n md wd ex 0 (n - 1) st' := by
  obtain ⟨s1, h1, h2⟩ := upTo_inv (Inv p mps mpo fs n md wd ex) (f := oneRight lib p mps mpo) (T := n - 1)
    (fun i j st hT hi => oneRight_inv h hf (by omega) hi) (n - 1) le_rfl st hst
  obtain ⟨s2, h3, h4⟩ := downFrom_inv (Inv p mps mpo fs n md wd ex) (f := oneLeft lib p mps mpo) (T := n - 1)
    (fun i j st hT hi => oneLeft_inv h hf (by omega) hi) (n - 1) _ (by omega) s1 h2
  exact ⟨s2, by rw [sweep1, h.len, h1]; exact h3, h4⟩

theorem iterate2_inv (h : Chain p mps mpo fs n md wd xd) (hn : 2 ≤ n) {lib : Lib 𝕜} (hf : Factorizations lib)
    (hk : ex → (∀ f ∈ fs, 0 < f) ∧ ∀ t : Tn 𝕜, (t.shape.take 2).prod ≤ fs.prod → Keeps lib t 2) (tol : ℝ) : ∀ (k : ℕ) (last : Option Peps.Diag) (st : State 𝕜),
    Inv p mps mpo fs n md wd ex 0 (n - 2) st →
    ∃ st', iterate2 lib p mps mpo tol k last st = some st' ∧ Inv p mps mpo fs n md wd ex 0 (n - 2) st' := by
  intro k
  induction k with
  | zero => intro last st hst; exact ⟨st, rfl, hst⟩
  | succ k ih =>
    intro last st hst
    obtain ⟨s1, h1, h2⟩ := sweep2_inv h hn hf hk hst
    rw [iterate2, h1, Option.bind_some]
    split
    · exact ⟨s1, rfl, h2⟩
    · exact ih _ s1 h2

theorem iterate1_inv (h : Chain p mps mpo fs n md wd xd) (hn : 1 ≤ n) {lib : Lib 𝕜} (hf : Factorizations lib)
    (tol : ℝ) : ∀ (k : ℕ) (last : Option ℝ) (st : State 𝕜),
    Inv p mps mpo fs n md wd ex 0 (n - 1) st →
    ∃ st', iterate1 lib p mps mpo tol k last st = some st' ∧ Inv p mps mpo fs n md wd ex 0 (n - 1) st' := by
  intro k
  induction k with
  | zero => intro last st hst; exact ⟨st, rfl, hst⟩
  | succ k ih =>
    intro last st hst
    obtain ⟨s1, h1, h2⟩ := sweep1_inv h hn hf hst
    rw [iterate1, h1, Option.bind_some]
    split
    · exact ⟨s1, rfl, h2⟩
    · exact ih _ s1 h2

/-- the first tensor holds the components of the product in the orthonormal family of the others -/
def Best (p : Pos) (mps mpo : List (Tn 𝕜)) (fs : List ℕ) (md wd : ℕ → ℕ) (ex : Prop) (res : List (Tn 𝕜)) : Prop :=
  ∃ a as B, res = a :: as ∧ a.shape = [1, fs.getD 0 0, B] ∧ Shp as B (fs.drop 1) ∧
    (∀ c < B, ∀ c' < B, ∑ ys ∈ box (fs.drop 1), mv as ys c * (starRingEnd 𝕜) (mv as ys c') =
      if c = c' then 1 else 0) ∧
    (∀ x < fs.getD 0 0, ∀ c < B, a.elem [0, x, c] = (starRingEnd 𝕜) (∑ ys ∈ box (fs.drop 1),
      mv as ys c * tv p mps mpo (x :: ys) 0 0)) ∧
    (ex → ∃ G : ℕ → ℕ → 𝕜, ∀ x < fs.getD 0 0, ∀ ys ∈ box (fs.drop 1), tv p mps mpo (x :: ys) 0 0 =
      ∑ c ∈ Finset.range B, (starRingEnd 𝕜) (mv as ys c) * G x c)

theorem best_of (h : Chain p mps mpo fs n md wd xd) (hn : 1 ≤ n) {res : List (Tn 𝕜)} {a r : Tn 𝕜} {B : ℕ}
    (hlen : res.length = n)
    (hr : REnv p (mps.drop 1) (mpo.drop 1) (res.drop 1) (fs.drop 1) (md 1) (wd 1) B r)
    (hrs : ex → ∃ G : List ℕ → ℕ → 𝕜, ∀ ys1 ∈ box (fs.take 1).reverse, ∀ ys2 ∈ box (fs.drop 1),
      cutv p mps mpo md wd 1 ys1 ys2 = ∑ c ∈ Finset.range B, (starRingEnd 𝕜) (mv (res.drop 1) ys2 c) * G ys1 c)
    (ha : a.shape = [1, fs.getD 0 0, B])
    (hv : ∀ x < fs.getD 0 0, ∀ c < B, a.elem [0, x, c] = (starRingEnd 𝕜) (∑ ys ∈ box (fs.drop 1),
      mv (res.drop 1) ys c * cutv p mps mpo md wd 0 [] (x :: ys))) :
    Best p mps mpo fs md wd ex (res.set 0 a) := by
  refine ⟨a, res.drop 1, B, ?_, ha, hr.chain, hr.iso, ?_, ?_⟩
  · have := drop_set_self (l := res) (i := 0) (by omega) a
    simpa using this
  · intro x hx c hc
    rw [hv x hx c hc]
    simp only [cut_zero h]
  · intro hex
    obtain ⟨G, hG⟩ := hrs hex
    refine ⟨fun x c => G [x] c, fun x hx ys hys => ?_⟩
    rw [← hG [x] (by rw [box_take_succ h hn]; exact cons_mem_box.2 ⟨hx, by simp [mem_box_nil]⟩) ys hys,
      cut_move h hn, cut_zero h]

theorem us_elem {u : Tn 𝕜} {s : Peps.Diag} {a f : ℕ} (hu : u.shape = [a, f, s.dim]) :
    (contractN u [2] s.ten [0]).shape = [a, f, s.dim] ∧ ∀ q x, ∀ c < s.dim,
      (contractN u [2] s.ten [0]).elem [q, x, c] = u.elem [q, x, c] * (s.val c : 𝕜) := by
  obtain ⟨sh, g⟩ := u
  obtain rfl : sh = _ := hu
  refine ⟨rfl, fun q x c hc => ?_⟩
  change ∑ k ∈ Finset.range s.dim, g [q, x, k] * (if k = c then (s.val k : 𝕜) else 0) = _
  rw [Finset.sum_eq_single c]
  · simp
  · intro k _ hk; simp [hk]
  · intro hn; exact absurd (Finset.mem_range.2 hc) hn

theorem final2_inv (h : Chain p mps mpo fs n md wd xd) (hn : 2 ≤ n) {lib : Lib 𝕜} (hf : Factorizations lib)
    (hk : ex → (∀ f ∈ fs, 0 < f) ∧ ∀ t : Tn 𝕜, (t.shape.take 2).prod ≤ fs.prod → Keeps lib t 2) {st : State 𝕜} (hst : Inv p mps mpo fs n md wd ex 0 (n - 2) st) :
    ∃ st' tmp3, final2 lib p mps mpo st = some (st', tmp3) ∧ Best p mps mpo fs md wd ex st'.res ∧
      Inv p mps mpo fs n md wd ex 0 (n - 1)
        { st' with renvs := growRight tmp3 (st'.res.getD 1 nil) :: st'.renvs } := by
  obtain ⟨hlen, hl, hr⟩ := hst
  obtain ⟨l, e1, h1⟩ := hl
  obtain ⟨r, rs, e2, h2⟩ := hr.cons
  rw [show n - (n - 2) = 0 + 2 by omega] at h2
  have hp := push_right h hf hk (by omega) hlen h1 h2 _ _ _ rfl rfl rfl
  refine ⟨_, _, by rw [final2, e1, e2], ?_, ?_⟩
  · obtain ⟨C, hl, _⟩ := h1
    obtain ⟨C', hr', _⟩ := h2
    have m := two_elem h (show 0 + 1 < n by omega) hl hr'
    dsimp only at m
    generalize hM : twoSite (leftHalf p l (mps.getD 0 nil) (mpo.getD 0 nil))
      (rightHalf p (mps.getD (0 + 1) nil) (mpo.getD (0 + 1) nil) r) = M at m hp
    obtain ⟨m1, m2⟩ := m
    generalize hd : lib.svd M 2 = d at hp
    obtain ⟨s1, s2, s3, s4, s5, s6⟩ := svd4 hf m1 hd.symm
    obtain ⟨v1, v2⟩ := transpose_021 s2
    obtain rfl : C = 1 := by
      have := hl.chain
      simp only [List.take_zero, List.reverse_nil, ShpL] at this
      exact this.1
    obtain ⟨B, hp1, hp2⟩ := hp
    obtain rfl : B = d.s.dim := by
      have := hp1.chain
      rw [drop_set_self (by omega)] at this
      obtain ⟨_, _, _, _, h5, _⟩ := this
      rw [v1] at h5
      simpa using congrArg (List.getD · 0 0) h5.symm
    simp only [Nat.zero_add] at hM
    simp only [hM, hd]
    rw [List.set_comm _ _ (by omega)]
    have hu := us_elem (s := d.s) s1
    refine best_of h (by omega) (by simpa using hlen) hp1 hp2 hu.1 ?_
    intro x hx c hc
    rw [hu.2 0 x c hc, ← s5 c hc 0 (by omega) x hx]
    rw [drop_set_self (by omega)]
    rw [box_drop h (show 1 < n by omega), sum_box_cons, map_sum]
    refine Finset.sum_congr rfl fun x' hx' => ?_
    simp only [mv, v1, v2, List.getD_cons_zero, List.getD_cons_succ, Finset.sum_mul, map_sum]
    rw [Finset.sum_comm]
    refine Finset.sum_congr rfl fun c' hc' => ?_
    rw [m2 0 (by omega) x c' (Finset.mem_range.1 hc') x']
    simp only [List.take_zero, List.reverse_nil, sum_box_nil, mvr, one_mul, map_sum, map_mul, RCLike.conj_conj,
      Finset.sum_mul]
    exact Finset.sum_congr rfl fun ys _ => by ring
  · refine ⟨by simpa using hlen, ⟨l, rfl, ?_⟩, ?_⟩
    · exact (LE.set (Nat.zero_le _)).2 ((LE.set (Nat.zero_le _)).2 h1)
    · rw [show n - 1 = (n - 2) + 1 by omega]
      refine ⟨_, _, rfl, ?_, ?_⟩
      · rw [show n - (n - 2 + 1) = 1 by omega]
        dsimp only
        have hg : ∀ x y : Tn 𝕜, ((st.res.set 0 x).set 1 y).getD 1 nil = y := fun x y => by
          simp [List.getD_eq_getElem?_getD, show 1 < st.res.length by omega]
        rw [hg, List.set_comm _ _ (by omega)]
        exact (RE.set (by omega)).2 hp
      · dsimp only
        rw [← e2]
        exact hr.mono fun k hk r hr => (RE.set (by omega)).2 ((RE.set (by omega)).2 hr)

theorem final1_inv (h : Chain p mps mpo fs n md wd xd) (hn : 1 ≤ n) {st : State 𝕜}
    (hst : Inv p mps mpo fs n md wd ex 0 (n - 1) st) :
    ∃ st', final1 p mps mpo st = some st' ∧ Best p mps mpo fs md wd ex st'.res := by
  obtain ⟨hlen, hl, hr⟩ := hst
  obtain ⟨l, e1, h1⟩ := hl
  obtain ⟨r, rs, e2, h2⟩ := hr.cons
  rw [show n - (n - 1) = 0 + 1 by omega] at h2
  refine ⟨_, by rw [final1, e1, e2], ?_⟩
  obtain ⟨C, hl, _⟩ := h1
  obtain ⟨C', hr', hrs⟩ := h2
  obtain ⟨m1, m2⟩ := one_right_elem h (show 0 < n by omega) hl hr'
  obtain rfl : C = 1 := by
    have := hl.chain
    simp only [List.take_zero, List.reverse_nil, ShpL] at this
    exact this.1
  refine best_of h hn hlen hr' hrs m1 ?_
  intro x hx c hc
  rw [m2 0 (by omega) x c hc]
  simp only [List.take_zero, List.reverse_nil, sum_box_nil, mvr, one_mul, Nat.zero_add]

end

end QLPeps.BmpsVar
