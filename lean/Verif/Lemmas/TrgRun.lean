import Verif.Lemmas.TrgTrial
import Verif.Spec.Trg

/-!
# The TRG contractor over a history of calls
-/

namespace QLPeps.Trg

open Spec

variable {T P I A : Type}

theorem isPow2_iff (n : ℕ) : isPow2 n = true ↔ ∃ k, n = 2 ^ k := by
  unfold isPow2
  rw [Bool.and_eq_true, bne_iff_ne, beq_iff_eq]
  constructor
  · rintro ⟨h0, h⟩
    exact (Nat.and_sub_one_eq_zero_iff_isPowerOfTwo h0).1 h
  · rintro ⟨k, rfl⟩
    have h0 : 2 ^ k ≠ 0 := by positivity
    exact ⟨h0, (Nat.and_sub_one_eq_zero_iff_isPowerOfTwo h0).2 ⟨k, rfl⟩⟩

theorem supported_iff (n : ℕ) :
    Supported n ↔ (isPow2 n || (n % 3 == 0 && isPow2 (n / 3))) = true := by
  rw [Bool.or_eq_true, Bool.and_eq_true, beq_iff_eq, isPow2_iff, isPow2_iff]
  constructor
  · rintro ⟨k, rfl | rfl⟩
    · exact Or.inl ⟨k, rfl⟩
    · exact Or.inr ⟨by omega, k, by omega⟩
  · rintro (⟨k, h⟩ | ⟨h, k, h'⟩)
    · exact ⟨k, Or.inl h⟩
    · exact ⟨k, Or.inr (by omega)⟩

theorem Supported.cases {n : ℕ} (h : Supported n) :
    n = 1 ∨ n = 2 ∨ n = 3 ∨ ∃ m, 2 ≤ m ∧ n = 2 * m ∧ Supported m := by
  obtain ⟨k, h⟩ := h
  rcases k with _ | k
  · rcases h with rfl | rfl <;> simp
  · rcases h with rfl | rfl
    · rcases k with _ | k
      · simp
      · refine Or.inr (Or.inr (Or.inr ⟨2 ^ (k + 1), ?_, by ring, k + 1, Or.inl rfl⟩))
        have : 1 ≤ 2 ^ k := Nat.one_le_two_pow
        rw [pow_succ]; omega
    · refine Or.inr (Or.inr (Or.inr ⟨3 * 2 ^ k, ?_, by ring, k, Or.inr rfl⟩))
      have : 1 ≤ 2 ^ k := Nat.one_le_two_pow
      omega

theorem topo_small {n : ℕ} (h : n ≤ 3) (idx size : ℕ) (c2f : ℕ → List ℕ) :
    topo (T := T) (P := P) (I := I) n idx size c2f =
      .ok [⟨size, fun _ => none, fun _ => (none, none), c2f, fun _ => none⟩] := by
  rw [topo, dif_neg (by omega)]

theorem topo_step {m : ℕ} (h : 2 ≤ m) {idx : ℕ} (hi : idx % 2 = 0) (size : ℕ) (c2f : ℕ → List ℕ)
    {l : List (Scale T P I)} (hm : topo m (idx + 2) (m * m) (c2fOf (diamonds (2 * m))) = .ok l) :
    topo (2 * m) idx size c2f =
      .ok (⟨size, fun _ => none, f2cOf (plaquettes (2 * m)), c2f, fun _ => none⟩ ::
        ⟨2 * m * (2 * m) / 2, fun _ => none, f2cOf (diamonds (2 * m)), c2fOf (plaquettes (2 * m)),
          fun _ => none⟩ :: l) := by
  rw [topo, dif_pos (by omega), if_pos hi, if_neg (by omega), topo, dif_pos (by omega), if_neg (by omega),
    show 2 * m / 2 = m by omega, hm]

theorem topo_ok {n : ℕ} (hn : Supported n) (cols : ℕ) {idx : ℕ} (hi : idx % 2 = 0) (hc : idx = 0 → cols = n)
    (c2f : ℕ → List ℕ) :
    ∃ (f : Scale T P I) (r : List (Scale T P I)), topo n idx (n * n) c2f = .ok (f :: r) ∧ f.size = n * n ∧
      f.c2f = c2f ∧ Linked cols idx f r := by
  induction n using Nat.strong_induction_on generalizing idx c2f with
  | _ n ih =>
    rcases Supported.cases hn with rfl | rfl | rfl | ⟨m, h2, rfl, hm⟩
    · exact ⟨_, _, topo_small (by omega) _ _ _, rfl, rfl, Or.inl rfl⟩
    · exact ⟨_, _, topo_small (by omega) _ _ _, rfl, rfl, Or.inr (Or.inl rfl)⟩
    · exact ⟨_, _, topo_small (by omega) _ _ _, rfl, rfl, Or.inr (Or.inr rfl)⟩
    · obtain ⟨f, r, e, hs, hcf, hl⟩ := ih m (by omega) hm (idx := idx + 2) (by omega) (by omega)
        (c2fOf (diamonds (2 * m)))
      refine ⟨_, _, topo_step h2 hi _ _ e, rfl, rfl, ?_, ?_, hl⟩
      · exact link_plaq h2 hi hc rfl rfl rfl rfl
      · exact link_diam h2 (by omega) rfl hs rfl hcf

/-! ### `Init` and `Trace` -/

/-- the tensors of a network by number -/
def tensOf (tn : Net T) (i : ℕ) : T := tn.ten (i / tn.cols) (i % tn.cols)

/-- a periodic square network of a supported size -/
structure OkNet (tn : Net T) : Prop where
  periodic : tn.periodic = true
  square : tn.rows = tn.cols
  size : Supported tn.cols

/-- The contractor holds the caches of the network. -/
structure Holds (o : Ops T P I A) (g : Trg T P I) (tn : Net T) : Prop where
  periodic : g.periodic = true
  params : g.hasParams = true
  ready : g.ready = true
  rows : g.rows = tn.rows
  cols : g.cols = tn.cols
  scales : ∃ f0 r0 f r, topo (T := T) (P := P) (I := I) tn.cols 0 (tn.cols * tn.cols) (fun _ => []) = .ok (f0 :: r0) ∧
    SameTopo f0 f ∧ List.Forall₂ SameTopo r0 r ∧ g.scales = f :: r ∧ Full o tn.cols 0 f r (tensOf tn)

/-- the value of a network: the same for every contractor -/
noncomputable def ampOf (o : Ops T P I A) (tn : Net T) : A :=
  match topo (T := T) (P := P) (I := I) tn.cols 0 (tn.cols * tn.cols) (fun _ => []) with
  | .ok (f :: r) => topAmp o tn.cols 0 f r (tensOf tn)
  | _ => o.zero

theorem init_ok {tn : Net T} (hn : OkNet tn) (g : Trg T P I) :
    ∃ f r, topo (T := T) (P := P) (I := I) tn.cols 0 (tn.cols * tn.cols) (fun _ => []) = .ok (f :: r) ∧
      f.size = tn.cols * tn.cols ∧ Linked tn.cols 0 f r ∧
      init g tn = (⟨tn.rows, tn.cols, true, false, f :: r, g.hasParams⟩, .ok ()) := by
  obtain ⟨f, r, e, hs, -, hl⟩ := topo_ok (T := T) (P := P) (I := I) hn.size tn.cols (idx := 0) rfl (fun _ => rfl)
    (fun _ => [])
  refine ⟨f, r, e, hs, hl, ?_⟩
  have h3 := (supported_iff _).1 hn.size
  unfold init
  dsimp only
  rw [hn.square, if_neg (by rw [hn.periodic]; simp), if_neg (by simp), if_neg (by
    intro h
    rw [Bool.and_eq_true, Bool.not_eq_true', Bool.not_eq_true'] at h
    rw [h.1, h.2] at h3
    simp at h3), e]
  dsimp only
  rw [hl.validate, hn.periodic]

theorem trace_ok (o : Ops T P I A) {tn : Net T} (hn : OkNet tn) (g : Trg T P I) (hp : g.hasParams = true) :
    ∃ g', trace o (init g tn).1 tn = .ok (g', ampOf o tn) ∧ Holds o g' tn := by
  obtain ⟨f, r, e, hs, hl, hi⟩ := init_ok hn g
  rw [hi]
  dsimp only
  unfold trace
  rw [if_neg (by simp), if_neg (by rw [hn.periodic]; simp), if_neg (by rw [hp]; simp), if_neg (by simp)]
  dsimp only
  set f1 : Scale T P I := { f with
    tens := fun i => (if i < tn.rows * tn.cols then some (tn.ten (i / tn.cols) (i % tn.cols)) else f.tens i) } with hf1
  have h1 : SameTopo f f1 := ⟨rfl, rfl, rfl⟩
  have hrefl : List.Forall₂ SameTopo r r := List.forall₂_same.2 fun x _ => SameTopo.refl x
  obtain ⟨f', r', e', g1, g2, g3⟩ := traceUp_ok o (h1.linked hrefl hl) (tensOf tn) (fun i hi => by
    rw [hf1]
    dsimp only
    have : f1.size = tn.cols * tn.cols := hs
    rw [if_pos (by rw [hn.square, ← this]; exact hi)]
    rfl)
  rw [e']
  dsimp only
  have h2 : SameTopo f f' := ⟨g1.size, g1.f2c, g1.c2f⟩
  rw [finalAmp_ok o (h2.linked g2 hl) (tensOf tn) g3]
  refine ⟨⟨tn.rows, tn.cols, true, true, f' :: r', g.hasParams⟩, ?_, rfl, hp, rfl, rfl, rfl, f, r, f', r', e, h2, g2, rfl, g3⟩
  unfold ampOf
  rw [e]
  dsimp only
  rw [h2.topAmp g2]

theorem fresh_ok (o : Ops T P I A) {tn : Net T} (hn : OkNet tn) : fresh o tn = .ok (ampOf o tn) := by
  unfold fresh
  obtain ⟨g', e, -⟩ := trace_ok o hn (blank (T := T) (P := P) (I := I) tn.rows tn.cols) rfl
  obtain ⟨f, r, -, -, -, hi⟩ := init_ok hn (blank (T := T) (P := P) (I := I) tn.rows tn.cols)
  rw [hi] at e ⊢
  dsimp only at e ⊢
  rw [e]

/-! ### Trials -/

theorem sets_cols (tn : Net T) (reps : List ((ℕ × ℕ) × T)) :
    (Net.sets tn reps).cols = tn.cols ∧ (Net.sets tn reps).rows = tn.rows ∧
      (Net.sets tn reps).periodic = tn.periodic := by
  unfold Net.sets
  induction reps generalizing tn with
  | nil => exact ⟨rfl, rfl, rfl⟩
  | cons x l ih => rw [List.foldl_cons]; exact ih _

theorem OkNet.sets {tn : Net T} (hn : OkNet tn) (reps : List ((ℕ × ℕ) × T)) : OkNet (Net.sets tn reps) := by
  obtain ⟨h1, h2, h3⟩ := sets_cols tn reps
  exact ⟨h3.trans hn.periodic, by rw [h1, h2]; exact hn.square, by rw [h1]; exact hn.size⟩

theorem scale0_ok (tn : Net T) (reps : List ((ℕ × ℕ) × T)) (hr : ∀ x ∈ reps, x.1.1 < tn.cols ∧ x.1.2 < tn.cols) :
    ((scale0 tn.cols reps).map Prod.fst).Nodup ∧ (∀ x ∈ scale0 tn.cols reps, x.1 < tn.cols * tn.cols) ∧
    ∀ i, ov (scale0 tn.cols reps) (tensOf tn) i = tensOf (Net.sets tn reps) i := by
  have key : ∀ (reps : List ((ℕ × ℕ) × T)), (∀ x ∈ reps, x.1.1 < tn.cols ∧ x.1.2 < tn.cols) →
      ∀ (m : List (ℕ × T)) (tn' : Net T), tn'.cols = tn.cols → (m.map Prod.fst).Nodup →
      (∀ x ∈ m, x.1 < tn.cols * tn.cols) → (∀ i, ov m (tensOf tn) i = tensOf tn' i) →
      ((reps.foldl (fun m x => insert m (x.1.1 * tn.cols + x.1.2) x.2) m).map Prod.fst).Nodup ∧
      (∀ x ∈ reps.foldl (fun m x => insert m (x.1.1 * tn.cols + x.1.2) x.2) m, x.1 < tn.cols * tn.cols) ∧
      ∀ i, ov (reps.foldl (fun m x => insert m (x.1.1 * tn.cols + x.1.2) x.2) m) (tensOf tn) i =
        tensOf (reps.foldl (fun tn x => Net.set tn x.1.1 x.1.2 x.2) tn') i := by
    intro reps
    induction reps with
    | nil => intro _ m tn' _ h1 h2 h3; exact ⟨h1, h2, h3⟩
    | cons x l ih =>
      intro hr m tn' hc h1 h2 h3
      rw [List.foldl_cons, List.foldl_cons]
      obtain ⟨hx1, hx2⟩ := hr x (by simp)
      refine ih (fun y hy => hr y (by simp [hy])) _ _ (by exact hc) (nodup_insert h1 _ _) ?_ ?_
      · intro y hy
        have := (find?_isSome (insert m (x.1.1 * tn.cols + x.1.2) x.2) y.1).2 (List.mem_map.2 ⟨y, hy, rfl⟩)
        rw [find?_insert] at this
        by_cases hk : y.1 = x.1.1 * tn.cols + x.1.2
        · rw [hk]; exact enc_lt hx1 hx2
        · rw [if_neg hk, find?_isSome] at this
          obtain ⟨z, hz, hzy⟩ := List.mem_map.1 this
          rw [← hzy]; exact h2 z hz
      · intro i
        unfold ov
        rw [find?_insert]
        unfold tensOf Net.set
        dsimp only
        rw [hc]
        by_cases hk : i = x.1.1 * tn.cols + x.1.2
        · rw [if_pos hk, hk, enc_div hx2, enc_mod hx2]; simp
        · rw [if_neg hk, if_neg]
          · have := h3 i
            unfold ov tensOf at this
            rw [this, hc]
          · rintro ⟨e1, e2⟩
            apply hk
            rw [← e1, ← e2, mul_comm, Nat.div_add_mod]
  exact key reps hr [] tn rfl (by simp) (by simp) fun i => rfl

theorem insert_ne_nil {V : Type*} (m : List (ℕ × V)) (k : ℕ) (v : V) : insert m k v ≠ [] := by
  intro h
  have := find?_insert m k v k
  rw [h, if_pos rfl] at this
  simp [find?] at this

theorem scale0_isEmpty (cols : ℕ) (reps : List ((ℕ × ℕ) × T)) : (scale0 cols reps).isEmpty = reps.isEmpty := by
  rcases List.eq_nil_or_concat reps with rfl | ⟨l, x, rfl⟩
  · rfl
  · unfold scale0
    rw [List.concat_eq_append, List.foldl_append, List.foldl_cons, List.foldl_nil]
    have h1 := insert_ne_nil (l.foldl (fun m x => insert m (x.1.1 * cols + x.1.2) x.2) [])
      (x.1.1 * cols + x.1.2) x.2
    rw [List.isEmpty_eq_false_iff.2 h1, List.isEmpty_eq_false_iff.2 (by simp)]

section
variable (o : Ops T P I A) {g : Trg T P I} {tn : Net T} (hn : OkNet tn) (hg : Holds o g tn)
  (reps : List ((ℕ × ℕ) × T)) (hr : ∀ x ∈ reps, x.1.1 < tn.cols ∧ x.1.2 < tn.cols)
include hn hg

theorem Holds.linked : ∃ f0 r0 f r,
    topo (T := T) (P := P) (I := I) tn.cols 0 (tn.cols * tn.cols) (fun _ => []) = .ok (f0 :: r0) ∧
    SameTopo f0 f ∧ List.Forall₂ SameTopo r0 r ∧ g.scales = f :: r ∧ Full o tn.cols 0 f r (tensOf tn) ∧
    f.size = tn.cols * tn.cols ∧ Linked tn.cols 0 f r := by
  obtain ⟨f0, r0, f, r, e, h1, h2, h3, h4⟩ := hg.scales
  obtain ⟨f', r', e', hs, -, hl⟩ := topo_ok (T := T) (P := P) (I := I) hn.size tn.cols (idx := 0) rfl (fun _ => rfl)
    (fun _ => [])
  rw [e, Except.ok.injEq, List.cons.injEq] at e'
  obtain ⟨rfl, rfl⟩ := e'
  exact ⟨f0, r0, f, r, e, h1, h2, h3, h4, h1.size ▸ hs, h1.linked h2 hl⟩

theorem Holds.trace : Trg.trace o g tn = .ok (g, ampOf o tn) := by
  obtain ⟨f0, r0, f, r, e, h1, h2, h3, h4, h5, h6⟩ := Holds.linked o hn hg
  unfold Trg.trace
  rw [if_neg (by rw [hg.periodic]; simp), if_neg (by rw [hn.periodic]; simp), if_neg (by rw [hg.params]; simp),
    if_pos hg.ready, h3, finalAmp_ok o h6 _ h4]
  unfold ampOf
  rw [e]
  dsimp only
  rw [h1.topAmp h2]

include hr

theorem Holds.propagate (iso : Bool) : ∃ us ms,
    propagate o g.cols iso 0 g.scales (scale0 g.cols reps) = .ok (us, ms) ∧ us.length = g.scales.length ∧
    finalAmp o g.scales (us.getLastD []) = .ok (ampOf o (Net.sets tn reps)) ∧
    (iso = true → ∃ sc, commitUp o g.cols 0 g.scales us ms = .ok sc ∧
      Holds o { g with scales := sc } (Net.sets tn reps)) := by
  obtain ⟨f0, r0, f, r, e, h1, h2, h3, h4, h5, h6⟩ := Holds.linked o hn hg
  obtain ⟨n1, n2, n3⟩ := scale0_ok tn reps hr
  obtain ⟨us, ms, e', k1, k2, k3⟩ := propagate_ok o iso h6 (tensOf tn) h4 (scale0 tn.cols reps)
    (fun x hx => h5.symm ▸ n2 x hx) n1
  have hfun : ov (scale0 tn.cols reps) (tensOf tn) = tensOf (Net.sets tn reps) := funext n3
  have hc := (sets_cols tn reps).1
  rw [hg.cols, h3]
  refine ⟨us, ms, e', by simpa using k1, ?_, fun hi => ?_⟩
  · rw [k2, hfun]
    unfold ampOf
    rw [hc, e]
    dsimp only
    rw [h1.topAmp h2]
  · obtain ⟨f', r', e'', g1, g2, g3⟩ := k3 hi
    have hr' : List.Forall₂ SameTopo r0 r' := by
      clear e e' e'' k2 k3 h3 h4 h6 g3 k1
      induction h2 generalizing r' with
      | nil => cases g2; exact .nil
      | cons ha _ ih =>
        cases g2 with
        | cons hb hbs => exact .cons ⟨ha.size.trans hb.size, ha.f2c.trans hb.f2c, ha.c2f.trans hb.c2f⟩ (ih _ hbs)
    refine ⟨_, e'', hg.periodic, hg.params, hg.ready, by rw [(sets_cols tn reps).2.1]; exact hg.rows, by rw [hc], f0, r0, f', r', by rw [hc]; exact e,
      ⟨h1.size.trans g1.size, h1.f2c.trans g1.f2c, h1.c2f.trans g1.c2f⟩, hr', rfl, ?_⟩
    rw [hc, ← hfun]; exact g3

theorem Holds.evaluate : Trg.evaluate o g reps = .ok (ampOf o (Net.sets tn reps)) := by
  unfold Trg.evaluate
  rw [if_neg (by rw [hg.periodic]; simp), if_neg (by rw [hg.params]; simp), if_neg (by rw [hg.ready]; simp)]
  by_cases h : reps.isEmpty = true
  · rw [if_pos h]
    rw [List.isEmpty_iff] at h
    subst h
    obtain ⟨f0, r0, f, r, e, h1, h2, h3, h4, h5, h6⟩ := Holds.linked o hn hg
    rw [h3, finalAmp_ok o h6 _ h4]
    unfold ampOf
    rw [show Net.sets tn [] = tn from rfl, e]
    dsimp only
    rw [h1.topAmp h2]
  · rw [if_neg h]
    obtain ⟨us, ms, e, -, k, -⟩ := Holds.propagate o hn hg reps hr false
    rw [e]
    exact k

theorem Holds.beginTrial : ∃ t, Trg.beginTrial o g reps = .ok t ∧ t.amp = ampOf o (Net.sets tn reps) ∧
    ∃ g', commit o g t = .ok g' ∧ Holds o g' (Net.sets tn reps) := by
  unfold Trg.beginTrial
  rw [if_neg (by rw [hg.periodic]; simp), if_neg (by rw [hg.params]; simp), if_neg (by rw [hg.ready]; simp)]
  dsimp only
  rw [scale0_isEmpty]
  by_cases h : reps.isEmpty = true
  · rw [if_pos h]
    rw [List.isEmpty_iff] at h
    subst h
    obtain ⟨f0, r0, f, r, e, h1, h2, h3, h4, h5, h6⟩ := Holds.linked o hn hg
    rw [h3, finalAmp_ok o h6 _ h4]
    refine ⟨_, rfl, ?_, g, ?_, hg⟩
    · unfold ampOf
      rw [show Net.sets tn [] = tn from rfl, e]
      dsimp only
      rw [h1.topAmp h2]
    · unfold commit
      rw [if_neg (by rw [hg.periodic]; simp), if_neg (by rw [hg.params]; simp), if_neg (by rw [hg.ready]; simp),
        if_neg (by rw [h3]; simp), h3]
      dsimp only
      rw [commitUp_nil, ← h3]
  · rw [if_neg h]
    obtain ⟨us, ms, e, k0, k, k3⟩ := Holds.propagate o hn hg reps hr true
    rw [e]
    dsimp only
    rw [k]
    refine ⟨_, rfl, rfl, ?_⟩
    obtain ⟨sc, e', hh⟩ := k3 rfl
    refine ⟨_, ?_, hh⟩
    unfold commit
    rw [if_neg (by rw [hg.periodic]; simp), if_neg (by rw [hg.params]; simp), if_neg (by rw [hg.ready]; simp),
      if_neg (by rw [not_not]; exact k0)]
    dsimp only
    rw [e']

end

theorem run_ok (o : Ops T P I A) (cs : List (Call T)) {g : Trg T P I} {tn : Net T} (hn : OkNet tn) (hg : Holds o g tn)
    (hc : ∀ c ∈ cs, c.InRange tn.rows tn.cols) :
    run o g tn cs = .ok ((asked tn cs).map (ampOf o)) := by
  induction cs generalizing g tn with
  | nil => rfl
  | cons c cs ih =>
    have hc' := hc c (by simp)
    have hcs : ∀ d ∈ cs, d.InRange tn.rows tn.cols := fun d hd => hc d (by simp [hd])
    rcases c with ⟨reps, acc⟩ | reps | _
    · have hr : ∀ x ∈ reps, x.1.1 < tn.cols ∧ x.1.2 < tn.cols := fun x hx => by
        have := hc' x hx; rw [hn.square] at this; exact this
      obtain ⟨t, e, ha, g', e', hg'⟩ := Holds.beginTrial o hn hg reps hr
      unfold run asked
      rw [e]
      dsimp only
      cases acc
      · rw [if_neg (by simp), if_neg (by simp), ih hn hg hcs]
        dsimp only
        rw [ha, List.map_cons]
      · rw [if_pos rfl, if_pos rfl, e']
        dsimp only
        rw [ih (hn.sets reps) hg' (by rw [(sets_cols tn reps).1, (sets_cols tn reps).2.1]; exact hcs)]
        dsimp only
        rw [ha, List.map_cons]
    · have hr : ∀ x ∈ reps, x.1.1 < tn.cols ∧ x.1.2 < tn.cols := fun x hx => by
        have := hc' x hx; rw [hn.square] at this; exact this
      unfold run asked
      rw [Holds.evaluate o hn hg reps hr]
      dsimp only
      rw [ih hn hg hcs]
      rfl
    · unfold run asked
      rw [Holds.trace o hn hg]
      dsimp only
      rw [ih hn hg hcs]
      rfl

end QLPeps.Trg
