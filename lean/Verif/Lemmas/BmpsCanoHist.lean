import Verif.Lemmas.BmpsCanoEnt

/-! # Canonical forms of a boundary MPS: histories of calls -/

namespace QLPeps.BmpsCano

open QLPeps.Bmps QLPeps.Box QLPeps.BmpsCano.Spec
open QLPeps.BmpsVar (amp_eq isMps_iff sumCoors_box)
open QLPeps.Peps (Tn Lib contractN transpose norm2 sumCoors)
open QLPeps.BmpsVar.Spec (Factorizations Keeps amp normSq IsMps overlap)

noncomputable section

variable {𝕜 : Type*} [RCLike 𝕜] {fac : Facs 𝕜} {ds : List ℕ}

/-! ## entropies -/

theorem modify_last {α : Type*} (f : α → α) (t : α) (pre : List α) : (pre ++ [t]).modify pre.length f = pre ++ [f t] := by
  induction pre with
  | nil => rfl
  | cons a pre ih => simpa using ih

theorem entropy_run (hg : Good fac) (n : ℕ) {o : Obj 𝕜} (hs : Shp o.tens 1 ds) (hc : o.cano.length = o.tens.length)
    (hn : 0 < o.tens.length) (ht : Trusted o) (h0 : normSq ds (fun xs => amp o.tens xs 0) ≠ 0) :
    ∃ o' r, entropy fac n o = some (o', r) ∧ Shp o'.tens 1 ds ∧ o'.tens.length = o.tens.length ∧ o'.cano.length = o.tens.length ∧
      o'.center = o.tens.length - 1 ∧ (∀ xs ∈ box ds, mv o'.tens xs 0 = unit ds (fun xs => amp o.tens xs 0) xs) ∧
      Canonical 0 o'.tens ∧ (o.tens.length = 1 ∨ o'.cano.getD 0 .none = .none) ∧
      (∀ j, 0 < j → j < o.tens.length → o'.cano.getD j .none = .right) ∧ r.length = o.tens.length - 1 ∧
      ∀ i < o.tens.length - 1, ∃ s : Peps.Diag, r.getD i none = entropyOf n s ∧
        Spectrum (ds.take (i + 1)) (reduced (ds.drop (i + 1)) (unit ds fun xs => amp o.tens xs 0)) s.dim fun m => s.val m * s.val m := by
  obtain ⟨o1, a1, a2, a3, a4, a5, a6, a7, -, -, -⟩ := centralize_run hg hs hc (c := o.tens.length - 1) (by omega) ht
  obtain ⟨b1, b2⟩ := split_at (es := o1.tens) (i := o.tens.length - 1) (by omega)
  rw [List.drop_of_length_le (by omega)] at b1
  have hlen : o1.tens.length - 1 = o.tens.length - 1 := by rw [a3]
  generalize hpre : o1.tens.take (o.tens.length - 1) = pre at *
  generalize ht' : o1.tens.getD (o.tens.length - 1) nil = t at *
  have hl : ∀ e ∈ pre, LeftIso e := mem_pre b2 (b1 ▸ a7)
  have hnorm := norm_last (b1 ▸ a2) hl
  have hamp : normSq ds (fun xs => amp (pre ++ [t]) xs 0) = normSq ds (fun xs => amp o.tens xs 0) := by
    rw [normSq, normSq, sumCoors_box, sumCoors_box]
    exact Finset.sum_congr rfl fun xs hxs => by rw [← b1, amp_eq, amp_eq, a6 xs hxs]
  rw [hamp] at hnorm
  have hpos : 0 ≤ normSq ds (fun xs => amp o.tens xs 0) := by
    rw [normSq, sumCoors_box]; exact Finset.sum_nonneg fun _ _ => by positivity
  obtain ⟨m1, m2⟩ := mv_scale_last t ⟨t.shape, fun x => t.elem x / ((norm2 t : ℝ) : 𝕜)⟩ ((norm2 t : ℝ) : 𝕜) rfl (fun _ => rfl)
    pre 1 ds (b1 ▸ a2)
  have hnl : (normalizeLast o1).tens = pre ++ [⟨t.shape, fun x => t.elem x / ((norm2 t : ℝ) : 𝕜)⟩] := by
    simp only [normalizeLast, hlen]
    rw [b1, ← b2, modify_last]
  have hcan : Canonical (o.tens.length - 1) (normalizeLast o1).tens := by
    have hlen' : (normalizeLast o1).tens.length = o1.tens.length := by rw [hnl, b1]; simp
    refine ⟨fun i hi => ?_, fun i h1 h2 => by omega⟩
    have := a7.1 i hi
    rw [b1, List.getD_append _ _ _ _ (by omega)] at this
    rwa [hnl, List.getD_append _ _ _ _ (by omega)]
  have hlen' : (normalizeLast o1).tens.length = o.tens.length := by
    rw [← a3, hnl, b1]; simp
  have hval : ∀ xs ∈ box ds, mv (normalizeLast o1).tens xs 0 = unit ds (fun xs => amp o.tens xs 0) xs := fun xs hxs => by
    rw [hnl, m2 xs hxs, ← b1, a6 xs hxs, unit, hnorm, amp_eq]
  obtain ⟨o2, r, c1, c2, c3, c4, c5, c6, -, c8⟩ := entropies_spec hg n (o.tens.length - 1) (normalizeLast o1) (ds := ds) (by rw [hnl]; exact m1)
    (by rw [hlen']; exact a4) (by omega) hcan
  refine ⟨o2, r, ?_, c2.shp, c2.len.trans hlen', c2.clen.trans hlen', ?_, fun xs hxs => (c2.val xs hxs).trans (hval xs hxs),
    c4, c5.imp (fun h => by omega) id, fun j h1 h2 => c6 j h1 (by omega), c3, fun i hi => ?_⟩
  · rw [entropy, if_neg (by rintro h; simp [h] at hn), a1, Option.bind_some, hlen, ht', if_neg, c1]
    rw [hnorm, ← ne_eq, Real.sqrt_ne_zero hpos]
    exact h0
  · rw [c2.center]
    exact a5.trans (by omega)
  · obtain ⟨s, d1, d2⟩ := c8 i hi
    exact ⟨s, d1, reduced_congr hval d2⟩

/-! ## marks which tell the truth -/

/-- every mark is right -/
structure Truthful (o : Obj 𝕜) : Prop where
  left : ∀ i, i + 1 < o.tens.length → o.cano.getD i .none = .left → LeftIso (o.tens.getD i nil)
  right : ∀ i, 0 < i → i < o.tens.length → o.cano.getD i .none = .right → RightIso (o.tens.getD i nil)

theorem Truthful.trusted {o : Obj 𝕜} (h : Truthful o) : Trusted o :=
  ⟨fun k hk hm i hi => h.left i (by omega) (hm i hi), fun k hk hm i h1 h2 => h.right i (by omega) h2 (hm i h1 h2)⟩

theorem canonical_truthful {o : Obj 𝕜} {c : ℕ} (hc : Canonical c o.tens) (hl : ∀ j, j < c → o.cano.getD j .none = .left)
    (hr : ∀ j, c < j → j < o.tens.length → o.cano.getD j .none = .right) (hm : o.cano.getD c .none = .none) : Truthful o := by
  refine ⟨fun i hi hil => ?_, fun i h0 hi hir => ?_⟩
  · rcases lt_trichotomy i c with h | rfl | h
    · exact hc.1 i h
    · rw [hm] at hil; cases hil
    · rw [hr i h (by omega)] at hil; cases hil
  · rcases lt_trichotomy i c with h | rfl | h
    · rw [hl i h] at hir; cases hir
    · rw [hm] at hir; cases hir
    · exact hc.2 i h hi

theorem truthful_left {i : ℕ} {o o' : Obj 𝕜} (ht : Truthful o) (hs : Step ds i .left .none o o') (hi : LeftIso (o'.tens.getD i nil)) :
    Truthful o' := by
  have hl := hs.len
  refine ⟨fun j hj hm => ?_, fun j h0 hj hm => ?_⟩
  all_goals
    rw [hs.marks] at hm
    by_cases h1 : j = i
    · subst h1; first | exact hi | simp at hm
    · by_cases h2 : j = i + 1
      · simp [h2] at hm
      · rw [if_neg h1, if_neg h2] at hm
        rw [hs.tens j h1 h2]
        first | exact ht.left j (by omega) hm | exact ht.right j h0 (by omega) hm

theorem truthful_right {i : ℕ} {o o' : Obj 𝕜} (ht : Truthful o) (hs : Step ds i .none .right o o') (hi : RightIso (o'.tens.getD (i + 1) nil)) :
    Truthful o' := by
  have hl := hs.len
  refine ⟨fun j hj hm => ?_, fun j h0 hj hm => ?_⟩
  all_goals
    rw [hs.marks] at hm
    by_cases h1 : j = i
    · simp [h1] at hm
    · by_cases h2 : j = i + 1
      · subst h2; first | exact hi | simp at hm
      · rw [if_neg h1, if_neg h2] at hm
        rw [hs.tens j h1 h2]
        first | exact ht.left j (by omega) hm | exact ht.right j h0 (by omega) hm

theorem steps_ind {f : ℕ → Obj 𝕜 → Option (Obj 𝕜)} {R : Obj 𝕜 → Prop} (is : List ℕ) :
    ∀ o, (∀ i ∈ is, ∀ o, R o → ∃ o', f i o = some o' ∧ R o') → R o → ∃ o', steps f is o = some o' ∧ R o' := by
  induction is with
  | nil => exact fun o _ h => ⟨o, rfl, h⟩
  | cons i is ih =>
    intro o hf h
    obtain ⟨o1, a1, a2⟩ := hf i (by simp) o h
    obtain ⟨o2, b1, b2⟩ := ih o1 (fun j hj => hf j (by simp [hj])) a2
    exact ⟨o2, by rw [steps, a1]; exact b1, b2⟩

theorem mem_dropWhile {α : Type*} {p : α → Bool} {l : List α} {x : α} (h : x ∈ l.dropWhile p) : x ∈ l :=
  (List.dropWhile_sublist p).subset h

theorem leftTen_truthful (hg : Good fac) {o : Obj 𝕜} (hs : Shp o.tens 1 ds) (hc : o.cano.length = o.tens.length)
    (ht : Truthful o) {i : ℕ} (hi : i + 1 < o.tens.length) : ∃ o', leftTen fac i o = some o' ∧ Eqv ds o o' ∧ Truthful o' := by
  obtain ⟨o', a1, a2, a3⟩ := leftTen_spec hg hs hc hi
  exact ⟨o', a1, a2.toEqv, truthful_left ht a2 a3⟩

theorem rightTen_truthful (hg : Good fac) {o : Obj 𝕜} (hs : Shp o.tens 1 ds) (hc : o.cano.length = o.tens.length)
    (ht : Truthful o) {i : ℕ} (h0 : 1 ≤ i) (hi : i < o.tens.length) : ∃ o', rightTen fac i o = some o' ∧ Eqv ds o o' ∧ Truthful o' := by
  obtain ⟨i, rfl⟩ : ∃ j, i = j + 1 := ⟨i - 1, by omega⟩
  obtain ⟨o', a1, a2, a3⟩ := rightTen_spec hg hs hc hi
  exact ⟨o', a1, a2.toEqv, truthful_right ht a2 a3⟩

theorem leftCano_truthful (hg : Good fac) {o : Obj 𝕜} (hs : Shp o.tens 1 ds) (hc : o.cano.length = o.tens.length)
    (ht : Truthful o) {stop : ℕ} (hi : stop + 1 < o.tens.length) : ∃ o', leftCano fac stop o = some o' ∧ Eqv ds o o' ∧ Truthful o' := by
  refine steps_ind (R := fun o' => Eqv ds o o' ∧ Truthful o') _ o (fun i hi' o1 h => ?_) ⟨eqv_refl hs hc, ht⟩
  have := List.mem_range.1 (mem_dropWhile hi')
  have hl := h.1.len
  obtain ⟨o2, a1, a2, a3⟩ := leftTen_truthful hg h.1.shp (h.1.clen.trans hl.symm) h.2 (i := i) (by omega)
  exact ⟨o2, a1, h.1.trans a2, a3⟩

theorem rightCano_truthful (hg : Good fac) {o : Obj 𝕜} (hs : Shp o.tens 1 ds) (hc : o.cano.length = o.tens.length)
    (ht : Truthful o) {stop : ℕ} (h0 : 1 ≤ stop) (hi : stop < o.tens.length) :
    ∃ o', rightCano fac stop o = some o' ∧ Eqv ds o o' ∧ Truthful o' := by
  rw [rightCano, if_pos hi]
  refine steps_ind (R := fun o' => Eqv ds o o' ∧ Truthful o') _ o (fun i hi' o1 h => ?_) ⟨eqv_refl hs hc, ht⟩
  obtain ⟨k, k1, rfl⟩ := List.mem_map.1 (mem_dropWhile hi')
  have := List.mem_range.1 k1
  have hl := h.1.len
  obtain ⟨o2, a1, a2, a3⟩ := rightTen_truthful hg h.1.shp (h.1.clen.trans hl.symm) h.2 (i := o.tens.length - 1 - k) (by omega) (by omega)
  exact ⟨o2, a1, h.1.trans a2, a3⟩

theorem centralize_truthful (hg : Good fac) {o : Obj 𝕜} (hs : Shp o.tens 1 ds) (hc : o.cano.length = o.tens.length)
    (ht : Truthful o) {c : ℕ} (hi : c < o.tens.length) :
    ∃ o', centralize fac c o = some o' ∧ Shp o'.tens 1 ds ∧ o'.tens.length = o.tens.length ∧ o'.cano.length = o.tens.length ∧
      (∀ xs ∈ box ds, mv o'.tens xs 0 = mv o.tens xs 0) ∧ Truthful o' := by
  obtain ⟨o', a1, a2, a3, a4, -, a6, a7, a8, a9, a10⟩ := centralize_run hg hs hc hi ht.trusted
  refine ⟨o', a1, a2, a3, a4, a6, ?_⟩
  rcases a10 with ⟨h1, h2⟩ | h
  · exact ⟨by rw [h1, h2]; exact ht.left, by rw [h1, h2]; exact ht.right⟩
  · exact canonical_truthful a7 a8 (fun j h1 h2 => a9 j h1 (by omega)) h

theorem entropy_truthful {o o' : Obj 𝕜} (h3 : o'.tens.length = o.tens.length) (hc : Canonical 0 o'.tens)
    (hr : ∀ j, 0 < j → j < o.tens.length → o'.cano.getD j .none = .right) (h0 : o.tens.length = 1 ∨ o'.cano.getD 0 .none = .none) :
    Truthful o' := by
  refine ⟨fun i hi hm => ?_, fun i h1 h2 _ => hc.2 i h1 h2⟩
  cases i with
  | zero =>
    rcases h0 with h | h
    · omega
    · rw [h] at hm; cases hm
  | succ i => rw [hr (i + 1) (by omega) (by omega)] at hm; cases hm

/-! ## reversal -/

theorem shp_concat (e : Tn 𝕜) {d b c : ℕ} (he : e.shape = [b, d, c]) (es : List (Tn 𝕜)) :
    ∀ (A : ℕ) (ds : List ℕ), PShp es A ds b → PShp (es ++ [e]) A (ds ++ [d]) c := by
  induction es with
  | nil => rintro A ds ⟨rfl, rfl⟩; exact ⟨d, c, [], rfl, he, rfl, rfl⟩
  | cons e' es ih =>
    rintro A ds ⟨d', b', ds', rfl, h1, h2⟩
    exact ⟨d', b', _, rfl, h1, ih b' ds' h2⟩

theorem pshp_shp (es : List (Tn 𝕜)) : ∀ (A : ℕ) (ds : List ℕ), PShp es A ds 1 ↔ Shp es A ds := by
  induction es with
  | nil => intro A ds; rfl
  | cons e es ih => intro A ds; simp only [PShp, Shp, ih]

theorem pshp_reverse (es : List (Tn 𝕜)) : ∀ (A B : ℕ) (ds : List ℕ), PShp es A ds B →
    PShp (es.reverse.map (transpose [2, 1, 0])) B ds.reverse A := by
  induction es with
  | nil => rintro A B ds ⟨rfl, rfl⟩; exact ⟨rfl, rfl⟩
  | cons e es ih =>
    rintro A B ds ⟨d, b, ds', rfl, h1, h2⟩
    rw [List.reverse_cons, List.map_append, List.reverse_cons]
    exact shp_concat _ (BmpsVar.transpose_210 h1).1 _ _ _ (ih _ _ _ h2)

theorem mv_transpose (es : List (Tn 𝕜)) (hs : ∀ e ∈ es, ∃ a b c, e.shape = [a, b, c]) :
    ∀ (xs : List ℕ) (a : ℕ), mv (es.map (transpose [2, 1, 0])) xs a = mvr es xs a := by
  induction es with
  | nil => intro xs a; simp [mv, mvr]
  | cons e es ih =>
    intro xs a
    obtain ⟨A, B, C, h⟩ := hs e (by simp)
    obtain ⟨t1, t2⟩ := BmpsVar.transpose_210 h
    cases xs with
    | nil => simp [mv, mvr]
    | cons x xs =>
      simp only [List.map_cons, mv, mvr, t1, t2, h, List.getD_cons_succ, List.getD_cons_zero]
      exact Finset.sum_congr rfl fun b _ => by rw [ih (fun e he => hs e (by simp [he]))]

theorem box_reverse {xs : List ℕ} (h : xs ∈ box ds.reverse) : xs.reverse ∈ box ds := by
  rw [mem_box] at h ⊢
  have := List.rel_reverse h
  rwa [List.reverse_reverse] at this

theorem mv_reverse {es : List (Tn 𝕜)} (hs : Shp es 1 ds) {xs : List ℕ} (hx : xs ∈ box ds.reverse) :
    mv (es.reverse.map (transpose [2, 1, 0])) xs 0 = mv es xs.reverse 0 := by
  have hl : xs.reverse.length = es.length := by
    obtain ⟨_, _, _, h, _⟩ := BmpsVar.shp_dims es 1 ds hs
    rw [← h]
    exact (mem_box.1 (box_reverse hx)).length_eq
  rw [mv_transpose, ← mvr_reverse hs hl, List.reverse_reverse]
  intro e he
  obtain ⟨i, hi, rfl⟩ := List.getElem_of_mem (List.mem_reverse.1 he)
  obtain ⟨a, b, c, h⟩ := shape_at hs hi
  rw [List.getD_eq_getElem _ _ hi] at h
  exact ⟨a, b, c, h⟩

theorem leftIso_transpose {e : Tn 𝕜} (h : RightIso e) : LeftIso (transpose [2, 1, 0] e) := by
  obtain ⟨A, X, B, h1, h2⟩ := h
  obtain ⟨t1, t2⟩ := BmpsVar.transpose_210 h1
  refine ⟨B, X, A, t1, fun b hb b' hb' => ?_⟩
  simp only [t2]
  have := h2 b' hb' b hb
  rw [Finset.sum_comm] at this
  simp only [mul_comm ((starRingEnd 𝕜) _)]
  rw [this]
  simp only [eq_comm]

theorem rightIso_transpose {e : Tn 𝕜} (h : LeftIso e) : RightIso (transpose [2, 1, 0] e) := by
  obtain ⟨A, X, B, h1, h2⟩ := h
  obtain ⟨t1, t2⟩ := BmpsVar.transpose_210 h1
  refine ⟨B, X, A, t1, fun b hb b' hb' => ?_⟩
  simp only [t2]
  have := h2 b' hb' b hb
  rw [Finset.sum_comm] at this
  simp only [mul_comm (e.elem _)]
  rw [this]
  simp only [eq_comm]

theorem getD_reverse {es : List (Tn 𝕜)} {i : ℕ} (h : i < es.length) :
    (es.reverse.map (transpose [2, 1, 0])).getD i nil = transpose [2, 1, 0] (es.getD (es.length - 1 - i) nil) := by
  rw [List.getD_eq_getElem _ _ (by simpa using h), List.getElem_map, List.getElem_reverse, List.getD_eq_getElem _ _ (by omega)]

theorem canonical_reverse {es : List (Tn 𝕜)} {c : ℕ} (hc : c < es.length) (h : Canonical c es) :
    Canonical (es.length - 1 - c) (es.reverse.map (transpose [2, 1, 0])) := by
  refine ⟨fun i hi => ?_, fun i h1 h2 => ?_⟩
  · rw [getD_reverse (by omega)]
    exact leftIso_transpose (h.2 _ (by omega) (by omega))
  · have h2 : i < es.length := by simpa using h2
    rw [getD_reverse h2]
    exact rightIso_transpose (h.1 _ (by omega))

end

end QLPeps.BmpsCano
