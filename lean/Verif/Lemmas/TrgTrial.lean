import Verif.Lemmas.TrgCache

/-!
# Trials of the TRG contractor
-/

namespace QLPeps.Trg

variable {T P I A : Type}

/-- the tensors of a scale with the updates laid over them -/
def ov (upd : List (ℕ × T)) (t : ℕ → T) (i : ℕ) : T := (find? upd i).getD (t i)

theorem ov_nil (t : ℕ → T) : ov [] t = t := rfl

theorem up_congr (o : Ops T P I A) {cols s : ℕ} {fine coarse : Scale T P I} (hl : Link cols s fine coarse)
    {t t' : ℕ → T} {w : ℕ} (hw : w < coarse.size) (h : ∀ f ∈ coarse.c2f w, t f = t' f) :
    up o cols s fine coarse t w = up o cols s fine coarse t' w := by
  have hk : ∀ k < 4, t ((coarse.c2f w).getD k 0) = t' ((coarse.c2f w).getD k 0) := fun k hk =>
    h _ (getD_mem (by rw [hl.len w hw]; exact hk))
  unfold up
  dsimp only
  rw [hk 0 (by omega), hk 1 (by omega), hk 2 (by omega), hk 3 (by omega)]

theorem topAmp_congr (o : Ops T P I A) {cols s : ℕ} {fine : Scale T P I} {rest : List (Scale T P I)}
    (hl : Linked cols s fine rest) {t t' : ℕ → T} (h : ∀ i < fine.size, t i = t' i) :
    topAmp o cols s fine rest t = topAmp o cols s fine rest t' := by
  induction rest generalizing s fine t t' with
  | nil =>
    unfold topAmp
    rcases hl with h' | h' | h' <;> rw [h'] at h ⊢
    · simp [h 0 (by omega)]
    · simp [h 0 (by omega), h 1 (by omega), h 2 (by omega), h 3 (by omega)]
    · simp [h 0 (by omega), h 1 (by omega), h 2 (by omega), h 3 (by omega), h 4 (by omega), h 5 (by omega),
        h 6 (by omega), h 7 (by omega), h 8 (by omega)]
  | cons coarse rest ih =>
    exact ih hl.2 fun w hw => up_congr o hl.1 hw fun f hf => h f (hl.1.lt w hw f hf)

theorem full_congr (o : Ops T P I A) {cols s : ℕ} {fine : Scale T P I} {rest : List (Scale T P I)}
    (hl : Linked cols s fine rest) {t t' : ℕ → T} (h : ∀ i < fine.size, t i = t' i)
    (hf : Full o cols s fine rest t) : Full o cols s fine rest t' := by
  induction rest generalizing s fine t t' with
  | nil => exact fun i hi => h i hi ▸ hf i hi
  | cons coarse rest ih =>
    exact ⟨fun i hi => h i hi ▸ hf.1 i hi, fun i hi => h i hi ▸ hf.2.1 i hi,
      ih hl.2 (fun w hw => up_congr o hl.1 hw fun f hf => h f (hl.1.lt w hw f hf)) hf.2.2⟩

/-! ### Dirty nodes -/

theorem mem_dirty (fine : Scale T P I) (upd : List (ℕ × T)) (w : ℕ) :
    w ∈ dirty fine upd ↔ ∃ x ∈ upd, (fine.f2c x.1).1 = some w ∨ (fine.f2c x.1).2 = some w := by
  have hadd : ∀ (d : List ℕ) (p : Option ℕ), w ∈ addDirty d p ↔ w ∈ d ∨ p = some w := by
    intro d p
    rcases p with _ | v
    · simp [addDirty]
    · unfold addDirty
      dsimp only
      split_ifs with hv
      · constructor
        · exact Or.inl
        · rintro (h | h)
          · exact h
          · rw [Option.some.injEq] at h; subst h; exact hv
      · rw [List.mem_append, List.mem_singleton, Option.some.injEq, eq_comm (a := w)]
  have H : ∀ (d : List ℕ), w ∈ upd.foldl
      (fun d x => addDirty (addDirty d (fine.f2c x.1).1) (fine.f2c x.1).2) d ↔
      w ∈ d ∨ ∃ x ∈ upd, (fine.f2c x.1).1 = some w ∨ (fine.f2c x.1).2 = some w := by
    induction upd with
    | nil => intro d; simp
    | cons x l ih =>
      intro d
      rw [List.foldl_cons, ih, hadd, hadd]
      simp only [List.mem_cons, exists_eq_or_imp, or_assoc]
  unfold dirty
  rw [H]; simp

theorem Link.mem_dirty {cols s : ℕ} {fine coarse : Scale T P I} (hl : Link cols s fine coarse)
    {upd : List (ℕ × T)} (hu : ∀ x ∈ upd, x.1 < fine.size) (w : ℕ) :
    w ∈ dirty fine upd ↔ w < coarse.size ∧ ∃ x ∈ upd, x.1 ∈ coarse.c2f w := by
  rw [Trg.mem_dirty]
  constructor
  · rintro ⟨x, hx, h⟩
    obtain ⟨p1, p2, h1, h2, hp, hm⟩ := hl.parents x.1 (hu x hx)
    rw [hp] at h
    rcases h with h | h <;> rw [Option.some.injEq] at h <;> subst h
    · exact ⟨h1, x, hx, (hm _ h1).2 (Or.inl rfl)⟩
    · exact ⟨h2, x, hx, (hm _ h2).2 (Or.inr rfl)⟩
  · rintro ⟨hw, x, hx, h⟩
    obtain ⟨p1, p2, h1, h2, hp, hm⟩ := hl.parents x.1 (hu x hx)
    refine ⟨x, hx, ?_⟩
    rw [hp]
    rcases (hm w hw).1 h with rfl | rfl
    · exact Or.inl rfl
    · exact Or.inr rfl

/-! ### One step of the propagation -/

/-- the stored splits are those of updated nodes -/
def MInv (o : Ops T P I A) (cols s : ℕ) (iso : Bool) (fine coarse : Scale T P I) (upd : List (ℕ × T))
    (m : List (ℕ × SplitData P I)) : Prop :=
  ∀ k d, find? m k = some d → ∃ t, find? upd k = some t ∧ d = mk o iso (ty cols s fine coarse k) t

theorem getSplit_ok (o : Ops T P I A) {cols s : ℕ} (iso : Bool) {fine coarse : Scale T P I}
    (hl : Link cols s fine coarse) (t : ℕ → T)
    (hs : ∀ i < fine.size, fine.split i = some (mk o true (ty cols s fine coarse i) (t i)))
    (upd : List (ℕ × T)) {m : List (ℕ × SplitData P I)} (hm : MInv o cols s iso fine coarse upd m)
    {w k : ℕ} (hw : w < coarse.size) (hk : k < 4) :
    ∃ m' d, getSplit o cols s iso fine upd m ((coarse.c2f w).getD k 0) k = .ok (m', d) ∧
      MInv o cols s iso fine coarse upd m' ∧ (∀ j, (find? m j).isSome → (find? m' j).isSome) ∧
      ((find? upd ((coarse.c2f w).getD k 0)).isSome → (find? m' ((coarse.c2f w).getD k 0)).isSome) ∧
      (d.p, d.q) = o.split (ty cols s fine coarse ((coarse.c2f w).getD k 0)) (ov upd t ((coarse.c2f w).getD k 0)) := by
  have hc := hl.child_lt hw hk
  have hty := hl.childType hw hk
  generalize (coarse.c2f w).getD k 0 = c at hc hty ⊢
  unfold getSplit ov
  rcases hu : find? upd c with _ | t'
  · dsimp only
    rw [hs c hc]
    exact ⟨m, _, rfl, hm, fun _ h => h, by simp, rfl⟩
  · dsimp only
    rcases hmc : find? m c with _ | d
    · dsimp only
      rw [hty]
      refine ⟨insert m c (mk o iso (ty cols s fine coarse c) t'), mk o iso (ty cols s fine coarse c) t', rfl,
        ?_, ?_, ?_, rfl⟩
      · intro j d hj
        rw [find?_insert] at hj
        by_cases h : j = c
        · subst h
          rw [if_pos rfl, Option.some.injEq] at hj
          exact ⟨t', hu, hj.symm⟩
        · rw [if_neg h] at hj; exact hm j d hj
      · intro j hj
        rw [find?_insert]
        by_cases h : j = c
        · rw [if_pos h]; rfl
        · rw [if_neg h]; exact hj
      · intro _; rw [find?_insert, if_pos rfl]; rfl
    · dsimp only
      obtain ⟨t'', h1, h2⟩ := hm c d hmc
      rw [hu, Option.some.injEq] at h1
      subst h1
      exact ⟨m, d, rfl, hm, fun _ h => h, fun _ => by rw [hmc]; rfl, by rw [h2]; rfl⟩

theorem propNode_ok (o : Ops T P I A) {cols s : ℕ} (iso : Bool) {fine coarse : Scale T P I}
    (hl : Link cols s fine coarse) (t : ℕ → T)
    (hs : ∀ i < fine.size, fine.split i = some (mk o true (ty cols s fine coarse i) (t i)))
    (upd : List (ℕ × T)) (x : List (ℕ × T) × List (ℕ × SplitData P I))
    (hm : MInv o cols s iso fine coarse upd x.2) {w : ℕ} (hw : w < coarse.size) :
    ∃ m', propNode o cols s iso fine coarse upd x w =
        .ok (insert x.1 w (up o cols s fine coarse (ov upd t) w), m') ∧
      MInv o cols s iso fine coarse upd m' ∧ (∀ j, (find? x.2 j).isSome → (find? m' j).isSome) ∧
      ∀ f ∈ coarse.c2f w, (find? upd f).isSome → (find? m' f).isSome := by
  obtain ⟨m0, d0, e0, i0, mo0, c0, q0⟩ := getSplit_ok o iso hl t hs upd hm hw (k := 0) (by omega)
  obtain ⟨m1, d1, e1, i1, mo1, c1, q1⟩ := getSplit_ok o iso hl t hs upd i0 hw (k := 1) (by omega)
  obtain ⟨m2, d2, e2, i2, mo2, c2, q2⟩ := getSplit_ok o iso hl t hs upd i1 hw (k := 2) (by omega)
  obtain ⟨m3, d3, e3, i3, mo3, c3, q3⟩ := getSplit_ok o iso hl t hs upd i2 hw (k := 3) (by omega)
  refine ⟨m3, ?_, i3, fun j h => mo3 j (mo2 j (mo1 j (mo0 j h))), ?_⟩
  · unfold propNode
    simp only [bind, Except.bind, e0, e1, e2, e3]
    unfold up
    dsimp only
    rw [← q0, ← q1, ← q2, ← q3]
  · intro f hf hu
    obtain ⟨k, hk, rfl⟩ := mem_getD hf
    rw [hl.len w hw] at hk
    obtain rfl | rfl | rfl | rfl : k = 0 ∨ k = 1 ∨ k = 2 ∨ k = 3 := by omega
    · exact mo3 _ (mo2 _ (mo1 _ (c0 hu)))
    · exact mo3 _ (mo2 _ (c1 hu))
    · exact mo3 _ (c2 hu)
    · exact c3 hu

theorem nodup_insert {V : Type*} {m : List (ℕ × V)} (h : (m.map Prod.fst).Nodup) (k : ℕ) (v : V) :
    ((insert m k v).map Prod.fst).Nodup := by
  unfold insert
  split_ifs with ha
  · have : (m.map fun x => if x.1 = k then (k, v) else x).map Prod.fst = m.map Prod.fst := by
      rw [List.map_map]
      refine List.map_congr_left fun x _ => ?_
      dsimp only [Function.comp]
      split_ifs with hx
      · exact hx.symm
      · rfl
    rw [this]; exact h
  · rw [List.map_append, List.nodup_append]
    refine ⟨h, by simp, ?_⟩
    intro a ha' b hb
    simp only [List.map_cons, List.map_nil, List.mem_singleton] at hb
    subst hb
    rintro rfl
    apply ha
    obtain ⟨x, hx, rfl⟩ := List.mem_map.1 ha'
    exact List.any_eq_true.2 ⟨x, hx, by simp⟩

theorem foldlM_propNode_ok (o : Ops T P I A) {cols s : ℕ} (iso : Bool) {fine coarse : Scale T P I}
    (hl : Link cols s fine coarse) (t : ℕ → T)
    (hs : ∀ i < fine.size, fine.split i = some (mk o true (ty cols s fine coarse i) (t i)))
    (upd : List (ℕ × T)) (D : List ℕ) (hD : ∀ w ∈ D, w < coarse.size)
    (x : List (ℕ × T) × List (ℕ × SplitData P I)) (hx : (x.1.map Prod.fst).Nodup)
    (hm : MInv o cols s iso fine coarse upd x.2) :
    ∃ u m, D.foldlM (propNode o cols s iso fine coarse upd) x = .ok (u, m) ∧
      (u.map Prod.fst).Nodup ∧
      (∀ w, find? u w = if w ∈ D then some (up o cols s fine coarse (ov upd t) w) else find? x.1 w) ∧
      MInv o cols s iso fine coarse upd m ∧ (∀ j, (find? x.2 j).isSome → (find? m j).isSome) ∧
      ∀ w ∈ D, ∀ f ∈ coarse.c2f w, (find? upd f).isSome → (find? m f).isSome := by
  induction D generalizing x with
  | nil => exact ⟨x.1, x.2, rfl, hx, by simp, hm, fun _ h => h, by simp⟩
  | cons w D ih =>
    obtain ⟨m', e, i1, i2, i3⟩ := propNode_ok o iso hl t hs upd x hm (hD w (by simp))
    rw [List.foldlM_cons, e]
    obtain ⟨u, m, e', n', j1, j2, j3, j4⟩ := ih (fun v hv => hD v (by simp [hv]))
      (insert x.1 w (up o cols s fine coarse (ov upd t) w), m') (nodup_insert hx _ _) i1
    refine ⟨u, m, e', n', ?_, j2, fun j h => j3 j (i2 j h), ?_⟩
    · intro v
      rw [j1, find?_insert]
      by_cases hv : v ∈ D
      · simp [hv]
      · by_cases hvw : v = w
        · subst hvw; simp
        · simp [hv, hvw]
    · intro v hv f hf hu
      rcases List.mem_cons.1 hv with rfl | hv
      · exact j3 f (i3 f hf hu)
      · exact j4 v hv f hf hu

/-! ### Commit of one scale -/

theorem foldl_tens (upd : List (ℕ × T)) (hn : (upd.map Prod.fst).Nodup) (fine : Scale T P I) :
    upd.foldl (fun (f : Scale T P I) x => { f with tens := Function.update f.tens x.1 (some x.2) }) fine =
      { fine with tens := fun i => (find? upd i).orElse fun _ => fine.tens i } := by
  induction upd generalizing fine with
  | nil => rfl
  | cons x l ih =>
    obtain ⟨k, v⟩ := x
    rw [List.map_cons, List.nodup_cons] at hn
    rw [List.foldl_cons, ih hn.2]
    congr 1
    funext i
    have hk : find? l k = none := by
      rw [← Option.not_isSome_iff_eq_none, find?_isSome]; exact hn.1
    by_cases hi : i = k
    · subst hi
      dsimp only
      rw [hk, Function.update_self]
      simp [find?, List.lookup]
    · dsimp only
      rw [Function.update_of_ne hi]
      have : (i == k) = false := by simpa using hi
      simp [find?, List.lookup, this]

theorem foldl_split (sp : List (ℕ × SplitData P I)) (upd : List (ℕ × T)) (fine : Scale T P I) :
    upd.foldl (fun (f : Scale T P I) x => transplant sp f x.1) fine =
      { fine with split := fun i => if i ∈ upd.map Prod.fst then (find? sp i).orElse fun _ => fine.split i
                            else fine.split i } := by
  induction upd generalizing fine with
  | nil => rfl
  | cons x l ih =>
    obtain ⟨k, v⟩ := x
    rw [List.foldl_cons, ih]
    dsimp only [transplant]
    rcases hk : find? sp k with _ | d
    · dsimp only
      congr 1
      funext i
      by_cases hi : i = k
      · subst hi; simp [hk]
      · have : i ∈ ((k, v) :: l).map Prod.fst ↔ i ∈ l.map Prod.fst := by
          rw [List.map_cons, List.mem_cons]; exact or_iff_right hi
        simp only [this, Function.update_of_ne hi]
    · dsimp only
      congr 1
      funext i
      by_cases hi : i = k
      · subst hi; simp [hk]
      · have : i ∈ ((k, v) :: l).map Prod.fst ↔ i ∈ l.map Prod.fst := by
          rw [List.map_cons, List.mem_cons]; exact or_iff_right hi
        simp only [this, Function.update_of_ne hi]

theorem commitScale_ok (o : Ops T P I A) {cols s : ℕ} {fine : Scale T P I} (coarse : Scale T P I) (t : ℕ → T)
    (ht : ∀ i < fine.size, fine.tens i = some (t i))
    (hs : ∀ i < fine.size, fine.split i = some (mk o true (ty cols s fine coarse i) (t i)))
    (upd : List (ℕ × T)) (hu : ∀ x ∈ upd, x.1 < fine.size) (hn : (upd.map Prod.fst).Nodup)
    (m : List (ℕ × SplitData P I)) (hm : MInv o cols s true fine coarse upd m)
    (hall : ∀ j, (find? upd j).isSome → (find? m j).isSome) :
    ∃ fine', commitScale o cols s (some coarse) upd m fine = .ok fine' ∧ SameTopo fine fine' ∧
      (∀ i < fine'.size, fine'.tens i = some (ov upd t i)) ∧
      ∀ i < fine'.size, fine'.split i = some (mk o true (ty cols s fine' coarse i) (ov upd t i)) := by
  unfold commitScale
  by_cases he : upd.isEmpty = true
  · rw [if_pos he]
    rw [List.isEmpty_iff] at he
    subst he
    exact ⟨fine, rfl, SameTopo.refl _, ht, hs⟩
  · rw [if_neg he]
    have h1 : ¬ (upd.any fun x => decide (fine.size ≤ x.1)) = true := by
      rw [List.any_eq_true]
      rintro ⟨x, hx, h⟩
      have := hu x hx
      simp only [decide_eq_true_eq] at h
      omega
    have h2 : ¬ m.isEmpty = true := by
      intro h
      rw [List.isEmpty_iff] at h
      subst h
      obtain ⟨x, hx⟩ := List.exists_mem_of_ne_nil upd (by simpa using he)
      have := hall x.1 ((find?_isSome upd x.1).2 (List.mem_map.2 ⟨x, hx, rfl⟩))
      simp [find?] at this
    rw [if_neg h1]
    dsimp only
    rw [foldl_tens upd hn, if_neg h2, foldl_split]
    have h3 : ((upd.map Prod.fst).filter fun id => (find? m id).isNone) = [] := by
      rw [List.filter_eq_nil_iff]
      intro k hk
      have := hall k ((find?_isSome upd k).2 hk)
      rw [Option.isNone_iff_eq_none]
      exact Option.ne_none_iff_isSome.2 this
    rw [h3]
    refine ⟨_, rfl, ⟨rfl, rfl, rfl⟩, ?_, ?_⟩
    · intro i hi
      unfold ov
      dsimp only
      rw [ht i hi]
      cases find? upd i <;> rfl
    · intro i hi
      change _ = some (mk o true (ty cols s fine coarse i) (ov upd t i))
      dsimp only
      unfold ov
      by_cases hk : i ∈ upd.map Prod.fst
      · rw [if_pos hk]
        obtain ⟨d, hd⟩ := Option.isSome_iff_exists.1 (hall i ((find?_isSome upd i).2 hk))
        obtain ⟨t', h', rfl⟩ := hm i d hd
        rw [hd, h']
        rfl
      · rw [if_neg hk, hs i hi]
        rw [← find?_isSome, Option.not_isSome_iff_eq_none] at hk
        rw [hk]; rfl

/-! ### All scales -/

theorem finalAmp_cons (o : Ops T P I A) (fine coarse : Scale T P I) (rest : List (Scale T P I))
    (u : List (ℕ × T)) : finalAmp o (fine :: coarse :: rest) u = finalAmp o (coarse :: rest) u := by
  unfold finalAmp; rw [List.getLast?_cons_cons]

theorem finalAmp_top (o : Ops T P I A) (cols s : ℕ) {fine : Scale T P I}
    (hl : Linked cols s fine []) (t : ℕ → T) (hf : Full o cols s fine [] t) (upd : List (ℕ × T)) :
    finalAmp o [fine] upd = .ok (topAmp o cols s fine [] (ov upd t)) := by
  unfold finalAmp topAmp
  simp only [List.getLast?_singleton]
  have hf' : ∀ i < fine.size, overlay upd fine.tens i = some (ov upd t i) := by
    intro i hi
    unfold ov overlay
    rw [hf i hi]
    cases find? upd i <;> rfl
  rcases hl with h | h | h <;> rw [h] at hf' ⊢
  · simp only [if_true, hf' 0 (by omega)]
  · simp [hf' 0 (by omega), hf' 1 (by omega), hf' 2 (by omega), hf' 3 (by omega)]
  · simp [hf' 0 (by omega), hf' 1 (by omega), hf' 2 (by omega), hf' 3 (by omega), hf' 4 (by omega),
      hf' 5 (by omega), hf' 6 (by omega), hf' 7 (by omega), hf' 8 (by omega)]

theorem commitUp_nil (o : Ops T P I A) (cols s : ℕ) (l : List (Scale T P I)) :
    commitUp o cols s l (l.map fun _ => []) (l.map fun _ => []) = .ok l := by
  induction l generalizing s with
  | nil => rfl
  | cons x l ih =>
    simp only [List.map_cons]
    unfold commitUp
    rw [ih]
    rfl

/-- The updates reach the last scale as if all had been recomputed, and committing them leaves the caches of the
updated tensors. -/
theorem propagate_ok (o : Ops T P I A) {cols : ℕ} (iso : Bool) {s : ℕ} {fine : Scale T P I}
    {rest : List (Scale T P I)} (hl : Linked cols s fine rest) (t : ℕ → T) (hf : Full o cols s fine rest t)
    (upd : List (ℕ × T)) (hu : ∀ x ∈ upd, x.1 < fine.size) (hn : (upd.map Prod.fst).Nodup) :
    ∃ us ms, propagate o cols iso s (fine :: rest) upd = .ok (us, ms) ∧ us.length = rest.length + 1 ∧
      finalAmp o (fine :: rest) (us.getLastD []) = .ok (topAmp o cols s fine rest (ov upd t)) ∧
      (iso = true → ∃ fine' rest', commitUp o cols s (fine :: rest) us ms = .ok (fine' :: rest') ∧
        SameTopo fine fine' ∧ List.Forall₂ SameTopo rest rest' ∧ Full o cols s fine' rest' (ov upd t)) := by
  induction rest generalizing s fine t upd with
  | nil =>
    refine ⟨[upd], [[]], rfl, rfl, finalAmp_top o cols s hl t hf upd, fun _ => ?_⟩
    unfold commitUp commitScale
    by_cases he : upd.isEmpty = true
    · rw [if_pos he]
      rw [List.isEmpty_iff] at he
      subst he
      exact ⟨fine, [], rfl, SameTopo.refl _, .nil, hf⟩
    · rw [if_neg he]
      have h1 : ¬ (upd.any fun x => decide (fine.size ≤ x.1)) = true := by
        rw [List.any_eq_true]
        rintro ⟨x, hx, h⟩
        have := hu x hx
        simp only [decide_eq_true_eq] at h
        omega
      rw [if_neg h1]
      dsimp only
      rw [foldl_tens upd hn, if_pos (by rfl)]
      refine ⟨_, [], rfl, ⟨rfl, rfl, rfl⟩, .nil, ?_⟩
      intro i hi
      unfold ov
      dsimp only
      rw [hf i hi]
      cases find? upd i <;> rfl
  | cons coarse rest ih =>
    unfold propagate
    by_cases he : upd.isEmpty = true
    · rw [if_pos he]
      rw [List.isEmpty_iff] at he
      subst he
      refine ⟨_, _, rfl, by simp, ?_, fun _ => ?_⟩
      · have : (([] : List (ℕ × T)) :: ((coarse :: rest).map fun _ => [])).getLastD [] = [] := by
          rw [List.getLastD_eq_getLast?]
          have : ([] :: ((coarse :: rest).map fun _ => ([] : List (ℕ × T)))) =
              List.replicate (rest.length + 2) [] := by
            rw [List.eq_replicate_iff]
            refine ⟨by simp, ?_⟩
            intro b hb
            simp only [List.mem_cons, List.mem_map] at hb
            rcases hb with rfl | ⟨_, _, rfl⟩ <;> rfl
          rw [this, List.getLast?_replicate]
          simp
        rw [this, ov_nil]
        exact finalAmp_ok o hl t hf
      · refine ⟨fine, coarse :: rest, ?_, SameTopo.refl _, List.forall₂_same.2 fun x _ => SameTopo.refl x, ?_⟩
        · exact commitUp_nil o cols s (fine :: coarse :: rest)
        · rw [ov_nil]; exact hf
    · rw [if_neg he]
      have hD : ∀ w ∈ dirty fine upd, w < coarse.size := fun w hw => ((hl.1.mem_dirty hu w).1 hw).1
      obtain ⟨u, m, e, n', j1, j2, -, j4⟩ := foldlM_propNode_ok o iso hl.1 t hf.2.1 upd (dirty fine upd) hD
        ([], []) (by simp) (by intro k d h; simp [find?] at h)
      rw [e]
      dsimp only
      have hov : ∀ w < coarse.size, ov u (up o cols s fine coarse t) w = up o cols s fine coarse (ov upd t) w := by
        intro w hw
        unfold ov
        rw [j1]
        by_cases hd : w ∈ dirty fine upd
        · rw [if_pos hd]; rfl
        · rw [if_neg hd]
          refine up_congr o hl.1 hw fun f hf' => ?_
          have : find? upd f = none := by
            rw [← Option.not_isSome_iff_eq_none, find?_isSome]
            intro h
            obtain ⟨x, hx, rfl⟩ := List.mem_map.1 h
            exact hd ((hl.1.mem_dirty hu w).2 ⟨hw, x, hx, hf'⟩)
          rw [this]; rfl
      have hu' : ∀ x ∈ u, x.1 < coarse.size := by
        intro x hx
        have := (find?_isSome u x.1).2 (List.mem_map.2 ⟨x, hx, rfl⟩)
        rw [j1] at this
        split_ifs at this with h
        · exact hD _ h
        · simp [find?] at this
      obtain ⟨us, ms, e', k1, k2, k3⟩ := ih hl.2 _ hf.2.2 u hu' n'
      rw [e']
      refine ⟨upd :: us, m :: ms, rfl, by simp [k1], ?_, fun hi => ?_⟩
      · rw [finalAmp_cons]
        have : (upd :: us).getLastD [] = us.getLastD [] := by
          rcases us with _ | ⟨a, us⟩
          · simp at k1
          · simp [List.getLastD_eq_getLast?, List.getLast?_cons_cons]
        rw [this, k2]
        congr 1
        exact topAmp_congr o hl.2 hov
      · subst hi
        obtain ⟨c', r', e'', g1, g2, g3⟩ := k3 rfl
        have hall : ∀ j, (find? upd j).isSome → (find? m j).isSome := by
          intro j hj
          obtain ⟨x, hx, hxj⟩ := List.mem_map.1 ((find?_isSome upd j).1 hj)
          obtain ⟨p1, p2, h1, h2, hp, hm⟩ := hl.1.parents x.1 (hu x hx)
          have hc := (hm p1 h1).2 (Or.inl rfl)
          rw [hxj] at hc
          exact j4 p1 ((hl.1.mem_dirty hu p1).2 ⟨h1, x, hx, hxj ▸ hc⟩) j hc hj
        obtain ⟨fine', q1, q2, q3, q4⟩ := commitScale_ok o coarse t hf.1 hf.2.1 upd hu hn m j2 hall
        refine ⟨fine', c' :: r', ?_, q2, .cons g1 g2, ?_⟩
        · unfold commitUp
          rw [List.head?_cons, q1]
          dsimp only
          rw [e'']
        · refine ⟨q3, ?_, ?_⟩
          · rw [← (SameTopo.refl fine').ty g1]; exact q4
          · rw [← q2.up g1]
            have hl' : Linked cols (s + 1) c' r' := g1.linked g2 hl.2
            exact full_congr o hl' (fun i hi => hov i (g1.size ▸ hi)) g3

end QLPeps.Trg
