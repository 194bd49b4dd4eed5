import Verif.Spec.Measurer
import Mathlib.Data.List.OfFn
import Mathlib.Algebra.BigOperators.Fin
import Mathlib.Data.Fintype.Card
import Mathlib.Logic.Relation
import Mathlib.Tactic.Linarith

namespace QLPeps.Measurer

open QLPeps.Observables

variable {Ω 𝕜 : Type*} [RCLike 𝕜] {n : ℕ}

/-- `m` passes of the sampling loop -/
noncomputable def bodies (E : Env Ω 𝕜) (master : Bool) : ℕ → Rank Ω 𝕜 → Rank Ω 𝕜
  | 0, s => s
  | m + 1, s => body E master m (bodies E master m s)

/-- a process with the given registry, total and position -/
def snap (b : Rank Ω 𝕜) (reg : List (String × Option (List 𝕜))) (total : Option ℕ) (p : Phase) :
    Rank Ω 𝕜 := { b with reg := reg, total := total, phase := p }

@[simp] theorem snap_phase (b : Rank Ω 𝕜) (r t p) : (snap b r t p).phase = p := rfl
@[simp] theorem snap_samples (b : Rank Ω 𝕜) (r t p) : (snap b r t p).samples = b.samples := rfl
@[simp] theorem snap_psi (b : Rank Ω 𝕜) (r t p) : (snap b r t p).psi = b.psi := rfl
@[simp] theorem snap_reg (b : Rank Ω 𝕜) (r t p) : (snap b r t p).reg = r := rfl

theorem record_snap (E : Env Ω 𝕜) (master : Bool) (b : Rank Ω 𝕜) (r t p) :
    record E master (snap b r t p) = snap (record E master b) r t p := by
  unfold record snap
  dsimp only
  split_ifs <;> rfl

theorem body_snap (E : Env Ω 𝕜) (master : Bool) (k : ℕ) (b : Rank Ω 𝕜) (r t p) :
    body E master k (snap b r t p) = snap (body E master k b) r t p := by
  unfold body
  dsimp only
  rw [← record_snap]
  rfl

theorem record_fields (E : Env Ω 𝕜) (master : Bool) (b : Rank Ω 𝕜) :
    (record E master b).eng = b.eng ∧ (record E master b).samples = b.samples ∧
      (record E master b).psi = b.psi ++ [psiSummary b.cache] ∧ (record E master b).cache = none ∧
      (record E master b).accum = b.accum ∧ (record E master b).reg = b.reg ∧
      (record E master b).total = b.total := by
  unfold record
  dsimp only
  split_ifs <;> exact ⟨rfl, rfl, rfl, rfl, rfl, rfl, rfl⟩

theorem body_samples (E : Env Ω 𝕜) (master : Bool) (k : ℕ) (b : Rank Ω 𝕜) :
    (body E master k b).samples = b.samples ++ [(E.observe (E.sweep b.eng).1).2.1] :=
  (record_fields E master _).2.1

theorem body_eng (E : Env Ω 𝕜) (master : Bool) (k : ℕ) (b : Rank Ω 𝕜) :
    (body E master k b).eng = (E.observe (E.sweep b.eng).1).1 :=
  (record_fields E master _).1

theorem body_reg (E : Env Ω 𝕜) (master : Bool) (k : ℕ) (b : Rank Ω 𝕜) :
    (body E master k b).reg = b.reg ∧ (body E master k b).total = b.total :=
  ⟨(record_fields E master _).2.2.2.2.2.1, (record_fields E master _).2.2.2.2.2.2⟩

theorem bodies_reg (E : Env Ω 𝕜) (master : Bool) (m : ℕ) (b : Rank Ω 𝕜) :
    (bodies E master m b).reg = b.reg ∧ (bodies E master m b).total = b.total := by
  induction m with
  | zero => exact ⟨rfl, rfl⟩
  | succ m ih =>
    have := body_reg E master m (bodies E master m b)
    exact ⟨this.1.trans ih.1, this.2.trans ih.2⟩

/-- the members at the beginning of `Measure_` -/
def fresh (r0 : Fin (n + 1) → Rank Ω 𝕜) (i : Fin (n + 1)) : Rank Ω 𝕜 :=
  { r0 i with accum := [], total := none }

/-- process `i` after `m` samples -/
noncomputable def after (E : Env Ω 𝕜) (r0 : Fin (n + 1) → Rank Ω 𝕜) (m : ℕ) (i : Fin (n + 1)) :
    Rank Ω 𝕜 := bodies E (isMaster i) m (fresh r0 i)

theorem after_keys {E : Env Ω 𝕜} {r0 : Fin (n + 1) → Rank Ω 𝕜} (hk : SameKeys E r0) (m : ℕ)
    (i : Fin (n + 1)) :
    (after E r0 m i).samples.map (fun o => o.map Prod.fst)
      = (after E r0 m 0).samples.map (fun o => o.map Prod.fst) := by
  induction m with
  | zero => exact hk.before i
  | succ m ih =>
    show (body E _ m (after E r0 m i)).samples.map _ = (body E _ m (after E r0 m 0)).samples.map _
    rw [body_samples, body_samples, List.map_append, List.map_append, ih]
    simp only [List.map_cons, List.map_nil]
    rw [hk.observe (E.sweep (after E r0 m i).eng).1 (E.sweep (after E r0 m 0).eng).1]

/-- the keys gathered after `m` samples -/
noncomputable def keysAt (E : Env Ω 𝕜) (r0 : Fin (n + 1) → Rank Ω 𝕜) (m : ℕ) : List String :=
  E.order (keysOf (after E r0 m 0).samples)

theorem keysOf_after {E : Env Ω 𝕜} {r0 : Fin (n + 1) → Rank Ω 𝕜} (hk : SameKeys E r0) (m : ℕ)
    (i : Fin (n + 1)) : E.order (keysOf (after E r0 m i).samples) = keysAt E r0 m := by
  unfold keysAt keysOf
  rw [after_keys hk]

/-- the registry of process `i` after the keys `dn` have been gathered, `m` samples per process -/
noncomputable def regAfter (E : Env Ω 𝕜) (r0 : Fin (n + 1) → Rank Ω 𝕜) (m : ℕ) (dn : List String)
    (i : Fin (n + 1)) : List (String × Option (List 𝕜)) :=
  dn.foldl (fun r k => put r k (stored (isMaster i)
    ((List.ofFn (fun j => after E r0 m j)).map (fun b => rankMean b.samples k)))) (r0 i).reg

/-- the total of process `i` once counted -/
noncomputable def totalAfter (E : Env Ω 𝕜) (r0 : Fin (n + 1) → Rank Ω 𝕜) (m : ℕ) (counted : Bool)
    (i : Fin (n + 1)) : Option ℕ :=
  if counted && isMaster i then some ((List.ofFn (fun j => after E r0 m j)).map (fun b => b.psi.length)).sum
  else none

/-- the common position of the processes -/
inductive At (E : Env Ω 𝕜) (r0 : Fin (n + 1) → Rank Ω 𝕜) (m : ℕ) :
    Phase → List String → Bool → Prop
  | loop (h : m < E.samples) : At E r0 m (.loop m) [] false
  | gather (dn k ks) (h : dn ++ k :: ks = keysAt E r0 m) : At E r0 m (.gather (k :: ks)) dn false
  | dirs (j : ℕ) (h : 0 < j) : At E r0 m (.dirs j) (keysAt E r0 m) false
  | count : At E r0 m .count (keysAt E r0 m) false
  | files (j : ℕ) (h : 0 < j) : At E r0 m (.files j) (keysAt E r0 m) true
  | fin : At E r0 m .fin (keysAt E r0 m) true

/-- the state of the processes after `m` samples at position `p` -/
structure Shape (E : Env Ω 𝕜) (r0 : Fin (n + 1) → Rank Ω 𝕜) (s : Sys Ω 𝕜 n) (m : ℕ) (p : Phase)
    (dn : List String) (counted : Bool) : Prop where
  le : m ≤ E.samples
  pos : At E r0 m p dn counted
  ranks : ∀ i, s.ranks i = snap (after E r0 m i) (regAfter E r0 m dn i) (totalAfter E r0 m counted i) p
  posted : ∀ i q, s.posted i = some q →
    p ≠ .fin ∧ ∃ b : Bool, (b = true → s.flags i = true) ∧ q = request b (s.ranks i)
  stopped : (∀ k, p ≠ .loop k) → m < E.samples → ∃ i, s.flags i = true

theorem at_toDirs (E : Env Ω 𝕜) (r0 : Fin (n + 1) → Rank Ω 𝕜) (m j : ℕ) :
    At E r0 m (toDirs j) (keysAt E r0 m) false := by
  unfold toDirs
  split_ifs with h
  · exact .count
  · exact .dirs j (Nat.pos_of_ne_zero h)

theorem at_toFiles (E : Env Ω 𝕜) (r0 : Fin (n + 1) → Rank Ω 𝕜) (m j : ℕ) :
    At E r0 m (toFiles j) (keysAt E r0 m) true := by
  unfold toFiles
  split_ifs with h
  · exact .fin
  · exact .files j (Nat.pos_of_ne_zero h)

theorem at_toGather (E : Env Ω 𝕜) (r0 : Fin (n + 1) → Rank Ω 𝕜) (m j : ℕ) (dn ks : List String)
    (h : dn ++ ks = keysAt E r0 m) : At E r0 m (toGather ks j) dn false := by
  unfold toGather
  split_ifs with h0
  · subst h0
    rw [List.append_nil] at h
    subst h
    exact at_toDirs E r0 m j
  · obtain ⟨k, ks, rfl⟩ := List.exists_cons_of_ne_nil h0
    exact .gather dn k ks h

theorem toDirs_ne (j k : ℕ) : toDirs j ≠ .loop k := by unfold toDirs; split_ifs <;> simp
theorem toFiles_ne (j k : ℕ) : toFiles j ≠ .loop k := by unfold toFiles; split_ifs <;> simp
theorem toGather_ne (ks : List String) (j k : ℕ) : toGather ks j ≠ .loop k := by
  unfold toGather; split_ifs
  · exact toDirs_ne j k
  · simp

theorem leave_snap {E : Env Ω 𝕜} {r0 : Fin (n + 1) → Rank Ω 𝕜} (hk : SameKeys E r0) (m : ℕ)
    (i : Fin (n + 1)) (r t p) :
    leave E (snap (after E r0 m i) r t p) = snap (after E r0 m i) r t (toGather (keysAt E r0 m) E.dirs) := by
  unfold leave
  rw [snap_samples, keysOf_after hk]
  rfl

theorem after_snap_self (E : Env Ω 𝕜) (r0 : Fin (n + 1) → Rank Ω 𝕜) (m : ℕ) (i : Fin (n + 1)) (p : Phase) :
    snap (after E r0 m i) (regAfter E r0 m [] i) (totalAfter E r0 m false i) p
      = { after E r0 m i with phase := p } := by
  have h := bodies_reg E (isMaster i) m (fresh r0 i)
  unfold snap regAfter totalAfter
  simp only [List.foldl_nil, Bool.false_and]
  have h1 : (after E r0 m i).reg = (r0 i).reg := h.1
  have h2 : (after E r0 m i).total = none := h.2
  rw [← h1]
  simp [← h2]

/-- position after the pass with `m` samples -/
theorem enter_shape {E : Env Ω 𝕜} {r0 : Fin (n + 1) → Rank Ω 𝕜} (hk : SameKeys E r0) (m : ℕ)
    (hm : m ≤ E.samples) : ∃ p, At E r0 m p [] false ∧ ((∃ k, p = .loop k) ∨ m = E.samples) ∧
      ∀ i (q : Phase), enter E m (snap (after E r0 m i) (regAfter E r0 m [] i) (totalAfter E r0 m false i) q)
        = snap (after E r0 m i) (regAfter E r0 m [] i) (totalAfter E r0 m false i) p := by
  by_cases h : m < E.samples
  · refine ⟨.loop m, .loop h, Or.inl ⟨m, rfl⟩, fun i q => ?_⟩
    unfold enter
    rw [if_pos h]; rfl
  · refine ⟨toGather (keysAt E r0 m) E.dirs, at_toGather _ _ _ _ _ _ rfl, Or.inr (by omega), fun i q => ?_⟩
    unfold enter
    rw [if_neg h, leave_snap hk]

theorem start_shape {E : Env Ω 𝕜} {r0 : Fin (n + 1) → Rank Ω 𝕜} (hk : SameKeys E r0)
    (flags : Fin (n + 1) → Bool) : ∃ p, Shape E r0 (start E r0 flags) 0 p [] false := by
  obtain ⟨p, h1, h2, h3⟩ := enter_shape hk 0 (Nat.zero_le _)
  refine ⟨p, Nat.zero_le _, h1, fun i => ?_, ?_, ?_⟩
  · rw [← h3 i (r0 i).phase, after_snap_self]
    rfl
  · intro i q h; exact absurd h (by simp [start])
  · intro h4 h5
    rcases h2 with ⟨k, rfl⟩ | h2
    · exact absurd rfl (h4 k)
    · omega

theorem resume_shape {E : Env Ω 𝕜} {r0 : Fin (n + 1) → Rank Ω 𝕜} (hk : SameKeys E r0) {s : Sys Ω 𝕜 n}
    {m : ℕ} {p : Phase} {dn : List String} {c : Bool} (h : Shape E r0 s m p dn c)
    (q : Fin (n + 1) → Req 𝕜) (hq : ∀ i, s.posted i = some (q i)) :
    ∃ m' p' dn' c', Shape E r0
      { s with ranks := fun i => resume E (isMaster i) (List.ofFn q) (s.ranks i), posted := fun _ => none }
      m' p' dn' c' ∧ m ≤ m' ∧
      ((p = .loop m ∧ (((∃ i, s.flags i = true) ∧ m' = m ∧ ∀ k, p' ≠ .loop k) ∨
        ((∀ i, (q i).flag = false) ∧ m' = m + 1))) ∨
        ((∀ k, p ≠ .loop k) ∧ m' = m ∧ ∀ k, p' ≠ .loop k)) := by
  have hreq : ∀ i, ∃ b : Bool, (b = true → s.flags i = true) ∧ q i = request b (s.ranks i) :=
    fun i => (h.posted i (q i) (hq i)).2
  have hnil : ∀ {P : Req 𝕜 → Prop} (i : Fin (n + 1)) (x : Req 𝕜), (none : Option (Req 𝕜)) = some x → P x :=
    fun _ _ hx => by cases hx
  obtain ⟨hle, hpos, hr, hp, hs⟩ := h
  cases hpos with
  | loop hlt =>
    by_cases hany : (List.ofFn q).any Req.flag = true
    · -- some process was interrupted
      refine ⟨m, toGather (keysAt E r0 m) E.dirs, [], false, ⟨hle, at_toGather _ _ _ _ _ _ rfl, ?_, ?_, ?_⟩,
        le_rfl, Or.inl ⟨rfl, Or.inl ⟨?_, rfl, toGather_ne _ _⟩⟩⟩
      · intro i
        show resume E (isMaster i) (List.ofFn q) (s.ranks i) = _
        rw [hr i]
        unfold resume
        simp only [snap_phase, hany, if_true]
        exact leave_snap hk m i _ _ _
      · intro i x hx; cases hx
      · intro _ _
        obtain ⟨x, hx, hxf⟩ := List.any_eq_true.1 hany
        obtain ⟨i, rfl⟩ := (List.mem_ofFn' q x).1 hx
        obtain ⟨b, hb, hqb⟩ := hreq i
        refine ⟨i, hb ?_⟩
        rw [hqb, hr i] at hxf
        simpa [request, Req.flag] using hxf
      · obtain ⟨x, hx, hxf⟩ := List.any_eq_true.1 hany
        obtain ⟨i, rfl⟩ := (List.mem_ofFn' q x).1 hx
        obtain ⟨b, hb, hqb⟩ := hreq i
        refine ⟨i, hb ?_⟩
        rw [hqb, hr i] at hxf
        simpa [request, Req.flag] using hxf
    · obtain ⟨p', h1, h2, h3⟩ := enter_shape hk (m + 1) hlt
      refine ⟨m + 1, p', [], false, ⟨hlt, h1, ?_, ?_, ?_⟩, Nat.le_succ m,
        Or.inl ⟨rfl, Or.inr ⟨?_, rfl⟩⟩⟩
      · intro i
        show resume E (isMaster i) (List.ofFn q) (s.ranks i) = _
        rw [hr i]
        unfold resume
        simp only [snap_phase, hany, if_false, Bool.false_eq_true]
        rw [body_snap]
        have := h3 i (.loop m)
        rw [← this]
        rfl
      · intro i x hx; cases hx
      · intro h4 h5
        rcases h2 with ⟨k, rfl⟩ | h2
        · exact absurd rfl (h4 k)
        · omega
      · intro i
        by_contra hc
        apply hany
        rw [List.any_eq_true]
        exact ⟨q i, (List.mem_ofFn' q _).2 ⟨i, rfl⟩, by simpa using hc⟩
  | gather dn k ks hd =>
    refine ⟨m, toGather ks E.dirs, dn ++ [k], false,
      ⟨hle, at_toGather _ _ _ _ _ _ (by simpa using hd), ?_, ?_, ?_⟩, le_rfl,
      Or.inr ⟨by simp, rfl, toGather_ne _ _⟩⟩
    · intro i
      show resume E (isMaster i) (List.ofFn q) (s.ranks i) = _
      have hmean : (List.ofFn q).map Req.mean
          = (List.ofFn (fun j => after E r0 m j)).map (fun b => rankMean b.samples k) := by
        rw [List.map_ofFn, List.map_ofFn]
        congr 1
        funext j
        obtain ⟨b, _, hqb⟩ := hreq j
        simp only [Function.comp]
        rw [hqb, hr j]
        rfl
      rw [hr i]
      unfold resume
      simp only [snap_phase, hmean]
      unfold snap regAfter
      simp only [List.foldl_append, List.foldl_cons, List.foldl_nil]
    · intro i x hx; cases hx
    · intro _ hlt; exact hs (by simp) hlt
  | dirs j hj =>
    refine ⟨m, toDirs (j - 1), keysAt E r0 m, false, ⟨hle, at_toDirs _ _ _ _, ?_, ?_, ?_⟩, le_rfl,
      Or.inr ⟨by simp, rfl, toDirs_ne _⟩⟩
    · intro i
      show resume E (isMaster i) (List.ofFn q) (s.ranks i) = _
      rw [hr i]; rfl
    · intro i x hx; cases hx
    · intro _ hlt; exact hs (by simp) hlt
  | count =>
    refine ⟨m, toFiles E.files, keysAt E r0 m, true, ⟨hle, at_toFiles _ _ _ _, ?_, ?_, ?_⟩, le_rfl,
      Or.inr ⟨by simp, rfl, toFiles_ne _⟩⟩
    · intro i
      show resume E (isMaster i) (List.ofFn q) (s.ranks i) = _
      have hcount : (List.ofFn q).map Req.count
          = (List.ofFn (fun j => after E r0 m j)).map (fun b => b.psi.length) := by
        rw [List.map_ofFn, List.map_ofFn]
        congr 1
        funext j
        obtain ⟨b, _, hqb⟩ := hreq j
        simp only [Function.comp]
        rw [hqb, hr j]
        rfl
      rw [hr i]
      unfold resume
      simp only [snap_phase, hcount]
      unfold snap totalAfter
      simp only [Bool.true_and]
    · intro i x hx; cases hx
    · intro _ hlt; exact hs (by simp) hlt
  | files j hj =>
    refine ⟨m, toFiles (j - 1), keysAt E r0 m, true, ⟨hle, at_toFiles _ _ _ _, ?_, ?_, ?_⟩, le_rfl,
      Or.inr ⟨by simp, rfl, toFiles_ne _⟩⟩
    · intro i
      show resume E (isMaster i) (List.ofFn q) (s.ranks i) = _
      rw [hr i]; rfl
    · intro i x hx; cases hx
    · intro _ hlt; exact hs (by simp) hlt
  | fin =>
    exact absurd rfl (hp 0 (q 0) (hq 0)).1

theorem arrive_shape {E : Env Ω 𝕜} {r0 : Fin (n + 1) → Rank Ω 𝕜} {s : Sys Ω 𝕜 n}
    {m : ℕ} {p : Phase} {dn : List String} {c : Bool} (h : Shape E r0 s m p dn c)
    (i : Fin (n + 1)) (hf : (s.ranks i).phase ≠ .fin) :
    Shape E r0 { s with posted := Function.update s.posted i (some (request (s.flags i) (s.ranks i))) }
      m p dn c := by
  refine ⟨h.le, h.pos, h.ranks, ?_, h.stopped⟩
  intro j q hj
  by_cases hji : j = i
  · subst hji
    simp only [Function.update_self, Option.some.injEq] at hj
    refine ⟨?_, s.flags j, id, hj.symm⟩
    rw [h.ranks j] at hf
    simpa using hf
  · simp only [Function.update_of_ne hji] at hj
    exact h.posted j q hj

theorem signal_shape {E : Env Ω 𝕜} {r0 : Fin (n + 1) → Rank Ω 𝕜} {s : Sys Ω 𝕜 n}
    {m : ℕ} {p : Phase} {dn : List String} {c : Bool} (h : Shape E r0 s m p dn c)
    (i : Fin (n + 1)) :
    Shape E r0 { s with flags := Function.update s.flags i true } m p dn c := by
  have hup : ∀ j, s.flags j = true → Function.update s.flags i true j = true := by
    intro j hj
    by_cases hji : j = i
    · subst hji; simp
    · rw [Function.update_of_ne hji]; exact hj
  refine ⟨h.le, h.pos, h.ranks, ?_, ?_⟩
  · intro j q hj
    obtain ⟨h1, b, hb, hq⟩ := h.posted j q hj
    exact ⟨h1, b, fun hbt => hup j (hb hbt), hq⟩
  · intro h1 h2
    obtain ⟨j, hj⟩ := h.stopped h1 h2
    exact ⟨j, hup j hj⟩

theorem step_shape {E : Env Ω 𝕜} {r0 : Fin (n + 1) → Rank Ω 𝕜} (hk : SameKeys E r0)
    {s t : Sys Ω 𝕜 n} (hst : Step E s t) {m : ℕ} {p : Phase} {dn : List String} {c : Bool}
    (h : Shape E r0 s m p dn c) : ∃ m' p' dn' c', Shape E r0 t m' p' dn' c' ∧ m ≤ m' := by
  rcases hst with hst | hst
  · cases hst with
    | arrive i h1 hf => exact ⟨m, p, dn, c, arrive_shape h i hf, le_rfl⟩
    | complete q hq hkind =>
      obtain ⟨m', p', dn', c', h1, h2, _⟩ := resume_shape hk h q hq
      exact ⟨m', p', dn', c', h1, h2⟩
  · cases hst with
    | signal i hf => exact ⟨m, p, dn, c, signal_shape h i, le_rfl⟩

theorem steps_shape {E : Env Ω 𝕜} {r0 : Fin (n + 1) → Rank Ω 𝕜} (hk : SameKeys E r0)
    {s t : Sys Ω 𝕜 n} (hst : Relation.ReflTransGen (Step E) s t) {m : ℕ} {p : Phase}
    {dn : List String} {c : Bool} (h : Shape E r0 s m p dn c) :
    ∃ m' p' dn' c', Shape E r0 t m' p' dn' c' ∧ m ≤ m' := by
  induction hst with
  | refl => exact ⟨m, p, dn, c, h, le_rfl⟩
  | tail _ hst ih =>
    obtain ⟨m', p', dn', c', h1, h2⟩ := ih
    obtain ⟨m'', p'', dn'', c'', h3, h4⟩ := step_shape hk hst h1
    exact ⟨m'', p'', dn'', c'', h3, le_trans h2 h4⟩

theorem kind_request {E : Env Ω 𝕜} {r0 : Fin (n + 1) → Rank Ω 𝕜} {s : Sys Ω 𝕜 n}
    {m : ℕ} {p : Phase} {dn : List String} {c : Bool} (h : Shape E r0 s m p dn c)
    (i j : Fin (n + 1)) (b b' : Bool) :
    (request b (s.ranks i)).kind = (request b' (s.ranks j)).kind := by
  have hpos := h.pos
  rw [h.ranks i, h.ranks j]
  cases hpos <;> rfl

theorem progress {E : Env Ω 𝕜} {r0 : Fin (n + 1) → Rank Ω 𝕜} {s : Sys Ω 𝕜 n}
    {m : ℕ} {p : Phase} {dn : List String} {c : Bool} (h : Shape E r0 s m p dn c) :
    s.done ∨ ∃ t, Move E s t := by
  by_cases hp : p = .fin
  · left
    intro i
    rw [h.ranks i, snap_phase, hp]
  · right
    by_cases hall : ∃ i, s.posted i = none
    · obtain ⟨i, hi⟩ := hall
      exact ⟨_, .arrive s i hi (by rw [h.ranks i, snap_phase]; exact hp)⟩
    · have hq : ∀ i, ∃ q, s.posted i = some q := by
        intro i
        cases hx : s.posted i with
        | none => exact absurd ⟨i, hx⟩ hall
        | some q => exact ⟨q, rfl⟩
      choose q hq using hq
      refine ⟨_, .complete s q hq (fun i => ?_)⟩
      obtain ⟨_, b, _, hb⟩ := h.posted i (q i) (hq i)
      obtain ⟨_, b', _, hb'⟩ := h.posted 0 (q 0) (hq 0)
      rw [hb, hb']
      exact kind_request h i 0 b b'

/-! ## Termination -/

/-- collective operations a process still has to take part in, if at most `B` keys are gathered -/
def left (E : Env Ω 𝕜) (B : ℕ) : Phase → ℕ
  | .loop k => (E.samples - k) + B + E.dirs + 1 + E.files
  | .gather ks => ks.length + E.dirs + 1 + E.files
  | .dirs j => j + 1 + E.files
  | .count => 1 + E.files
  | .files j => j
  | .fin => 0

theorem left_toDirs (E : Env Ω 𝕜) (B j : ℕ) : left E B (toDirs j) ≤ j + 1 + E.files := by
  unfold toDirs; split_ifs with h
  · simp [left, h]
  · simp [left]
theorem left_toFiles (E : Env Ω 𝕜) (B j : ℕ) : left E B (toFiles j) ≤ j := by
  unfold toFiles; split_ifs with h
  · simp [left]
  · simp [left]
theorem left_toGather (E : Env Ω 𝕜) (B : ℕ) (ks : List String) :
    left E B (toGather ks E.dirs) ≤ ks.length + E.dirs + 1 + E.files := by
  unfold toGather; split_ifs with h
  · have := left_toDirs E B E.dirs; omega
  · simp [left]

/-- a completed operation is one fewer -/
theorem left_resume {E : Env Ω 𝕜} {r0 : Fin (n + 1) → Rank Ω 𝕜} (hk : SameKeys E r0) {s : Sys Ω 𝕜 n}
    {m : ℕ} {p : Phase} {dn : List String} {c : Bool} (h : Shape E r0 s m p dn c) (hp : p ≠ .fin)
    (qs : List (Req 𝕜)) {B : ℕ} (hB : ∀ m ≤ E.samples, (keysAt E r0 m).length ≤ B) :
    left E B (resume E (isMaster (0 : Fin (n + 1))) qs (s.ranks 0)).phase < left E B (s.ranks 0).phase := by
  obtain ⟨hle, hpos, hr, _, _⟩ := h
  rw [hr 0]
  cases hpos with
  | loop hlt =>
    unfold resume
    simp only [snap_phase]
    split_ifs with ha
    · rw [leave_snap hk, snap_phase]
      have h2 := hB m hle
      refine lt_of_le_of_lt (left_toGather E B (keysAt E r0 m)) ?_
      simp only [left]
      omega
    · rw [body_snap]
      change left E B (enter E (m + 1) (snap (after E r0 (m + 1) 0) _ _ _)).phase < _
      unfold enter
      split_ifs with h1
      · simp only [left]
        omega
      · rw [leave_snap hk, snap_phase]
        have h3 := hB (m + 1) hlt
        refine lt_of_le_of_lt (left_toGather E B (keysAt E r0 (m + 1))) ?_
        simp only [left]
        omega
  | gather dn k ks hd =>
    simp only [resume, snap_phase]
    refine lt_of_le_of_lt (left_toGather E B ks) ?_
    simp only [left, List.length_cons]
    omega
  | dirs j hj =>
    simp only [resume, snap_phase]
    refine lt_of_le_of_lt (left_toDirs E B (j - 1)) ?_
    simp only [left]
    omega
  | count =>
    simp only [resume, snap_phase]
    refine lt_of_le_of_lt (left_toFiles E B E.files) ?_
    simp only [left]
    omega
  | files j hj =>
    simp only [resume, snap_phase]
    refine lt_of_le_of_lt (left_toFiles E B (j - 1)) ?_
    simp only [left]
    omega
  | fin => exact absurd rfl hp

/-- what is left to do -/
def fuel (E : Env Ω 𝕜) (B : ℕ) (s : Sys Ω 𝕜 n) : ℕ :=
  (Finset.univ.filter (fun i => s.flags i = false)).card + (n + 2) * left E B (s.ranks 0).phase
    + (Finset.univ.filter (fun i => (s.posted i).isNone)).card

theorem card_update_lt {α : Type*} (f : Fin (n + 1) → α) (P : α → Prop) [DecidablePred P]
    (i : Fin (n + 1)) (x : α) (hi : P (f i)) (hx : ¬ P x) :
    (Finset.univ.filter (fun j => P (Function.update f i x j))).card
      < (Finset.univ.filter (fun j => P (f j))).card := by
  apply Finset.card_lt_card
  refine ⟨?_, ?_⟩
  · intro j hj
    simp only [Finset.mem_filter, Finset.mem_univ, true_and] at hj ⊢
    by_cases hji : j = i
    · subst hji; exact hi
    · rwa [Function.update_of_ne hji] at hj
  · intro hsub
    have := hsub (show i ∈ _ by simpa using hi)
    simp only [Finset.mem_filter, Finset.mem_univ, true_and, Function.update_self] at this
    exact hx this

theorem fuel_step {E : Env Ω 𝕜} {r0 : Fin (n + 1) → Rank Ω 𝕜} (hk : SameKeys E r0)
    {s t : Sys Ω 𝕜 n} (hst : Step E s t) {m : ℕ} {p : Phase} {dn : List String} {c : Bool}
    (h : Shape E r0 s m p dn c) {B : ℕ} (hB : ∀ m ≤ E.samples, (keysAt E r0 m).length ≤ B) :
    fuel E B t < fuel E B s := by
  unfold fuel
  rcases hst with hst | hst
  · cases hst with
    | arrive i h1 hf =>
      have := card_update_lt s.posted (fun o => o.isNone = true) i
        (some (request (s.flags i) (s.ranks i))) (by simp [h1]) (by simp)
      simp only at this ⊢
      omega
    | complete q hq hkind =>
      have hp : p ≠ .fin := (h.posted 0 (q 0) (hq 0)).1
      have h1 := left_resume hk h hp (List.ofFn q) hB
      have h2 : (Finset.univ.filter (fun i => (s.posted i).isNone)).card = 0 := by
        rw [Finset.card_eq_zero, Finset.filter_eq_empty_iff]
        intro i _
        simp [hq i]
      have h3 : (Finset.univ.filter
          (fun _ : Fin (n + 1) => (none : Option (Req 𝕜)).isNone = true)).card ≤ n + 1 := by
        refine le_trans (Finset.card_filter_le _ _) ?_
        simp
      have h4 : (n + 2) * (left E B (resume E (isMaster (0 : Fin (n + 1))) (List.ofFn q) (s.ranks 0)).phase + 1)
          ≤ (n + 2) * left E B (s.ranks 0).phase := Nat.mul_le_mul_left _ h1
      rw [Nat.mul_add] at h4
      simp only at h2 h3 ⊢
      omega
  · cases hst with
    | signal i hf =>
      have := card_update_lt s.flags (fun b => b = false) i true hf (by simp)
      simp only at this ⊢
      omega

theorem Path.toRTG {α : Type*} {R : α → α → Prop} {k : ℕ} {a b : α} (h : Path R k a b) :
    Relation.ReflTransGen R a b := by
  induction h with
  | nil => exact .refl
  | snoc _ h ih => exact ih.tail h

theorem fuel_path {E : Env Ω 𝕜} {r0 : Fin (n + 1) → Rank Ω 𝕜} (hk : SameKeys E r0)
    {s t : Sys Ω 𝕜 n} {k : ℕ} (hst : Path (Step E) k s t) {m : ℕ} {p : Phase} {dn : List String}
    {c : Bool} (h : Shape E r0 s m p dn c) {B : ℕ}
    (hB : ∀ m ≤ E.samples, (keysAt E r0 m).length ≤ B) : k + fuel E B t ≤ fuel E B s := by
  induction hst with
  | nil => omega
  | snoc hp hst ih =>
    obtain ⟨m', p', dn', c', h1, _⟩ := steps_shape hk hp.toRTG h
    have := fuel_step hk hst h1 hB
    have := ih h
    omega

/-! ## Contents -/

theorem bodies_eng (E : Env Ω 𝕜) (master : Bool) (m : ℕ) (b : Rank Ω 𝕜) :
    (bodies E master m b).eng = engAfter E b.eng m := by
  induction m with
  | zero => rfl
  | succ m ih =>
    show (body E master m (bodies E master m b)).eng = _
    rw [body_eng, ih]; rfl

theorem bodies_samples (E : Env Ω 𝕜) (master : Bool) (m : ℕ) (b : Rank Ω 𝕜) :
    (bodies E master m b).samples
      = b.samples ++ (List.range m).map (fun k => (sampleAt E b.eng k).1) := by
  induction m with
  | zero => simp [bodies]
  | succ m ih =>
    show (body E master m (bodies E master m b)).samples = _
    rw [body_samples, ih, bodies_eng, List.range_succ, List.map_append, List.append_assoc]
    rfl

theorem bodies_cache (E : Env Ω 𝕜) (master : Bool) (m : ℕ) (b : Rank Ω 𝕜) (hc : b.cache = none) :
    (bodies E master m b).cache = none := by
  induction m with
  | zero => exact hc
  | succ m _ => exact (record_fields E master _).2.2.2.1

theorem bodies_psi (E : Env Ω 𝕜) (master : Bool) (m : ℕ) (b : Rank Ω 𝕜) (hc : b.cache = none) :
    (bodies E master m b).psi
      = b.psi ++ (List.range m).map (fun k => psiSummary (sampleAt E b.eng k).2) := by
  induction m with
  | zero => simp [bodies]
  | succ m ih =>
    show (body E master m (bodies E master m b)).psi = _
    have h1 := (record_fields E master
      { bodies E master m b with
        eng := (E.observe (E.sweep (bodies E master m b).eng).1).1
        accum := accumulate m (bodies E master m b).accum (E.sweep (bodies E master m b).eng).2
        samples := (bodies E master m b).samples ++ [(E.observe (E.sweep (bodies E master m b).eng).1).2.1]
        cache := (E.observe (E.sweep (bodies E master m b).eng).1).2.2.orElse
          (fun _ => (bodies E master m b).cache) }).2.2.1
    refine Eq.trans h1 ?_
    dsimp only
    rw [ih, bodies_cache E master m b hc, bodies_eng, List.range_succ, List.map_append,
      List.append_assoc]
    congr 2
    simp only [List.map_cons, List.map_nil]
    congr 1
    unfold sampleAt
    cases (E.observe (E.sweep (engAfter E b.eng m)).1).2.2 <;> rfl

theorem bodies_accum (E : Env Ω 𝕜) (master : Bool) (m : ℕ) (b : Rank Ω 𝕜) :
    (bodies E master (m + 1) b).accum
      = (List.range m).foldl (fun a k => List.zipWith (· + ·) a (ratesAt E b.eng (k + 1)))
        (ratesAt E b.eng 0) := by
  induction m with
  | zero =>
    show (body E master 0 b).accum = _
    exact (record_fields E master _).2.2.2.2.1
  | succ m ih =>
    rw [List.range_succ, List.foldl_append, ← ih]
    show (body E master (m + 1) (bodies E master (m + 1) b)).accum = _
    refine Eq.trans (record_fields E master _).2.2.2.2.1 ?_
    dsimp only
    rw [bodies_eng]
    simp only [accumulate, Nat.succ_ne_zero, if_false]
    rfl

theorem lookup_put_self {α : Type*} (r : List (String × α)) (k : String) (v : α) :
    (put r k v).lookup k = some v := by
  unfold put
  rw [List.lookup_append]
  have : List.lookup k (r.filter (fun e => e.1 ≠ k)) = none := by
    rw [List.lookup_eq_none_iff]
    intro p hp
    have h2 := (List.mem_filter.1 hp).2
    rw [decide_eq_true_eq] at h2
    simpa using fun h : k = p.1 => h2 h.symm
  rw [this]
  simp [List.lookup]

theorem lookup_put_ne {α : Type*} (r : List (String × α)) (k k' : String) (v : α) (h : k' ≠ k) :
    (put r k v).lookup k' = r.lookup k' := by
  unfold put
  rw [List.lookup_append]
  have h1 : List.lookup k' [(k, v)] = none := by
    have : (k' == k) = false := by simpa using h
    simp [List.lookup, this]
  rw [h1, Option.or_none]
  induction r with
  | nil => rfl
  | cons e r ih =>
    by_cases he : e.1 = k
    · have h2 : (k' == e.1) = false := by rw [he]; simpa using h
      rw [List.filter_cons_of_neg (by simpa using he), ih]
      simp [List.lookup, h2]
    · rw [List.filter_cons_of_pos (by simpa using he)]
      simp only [List.lookup]
      split
      · rfl
      · exact ih

theorem lookup_regAfter (E : Env Ω 𝕜) (r0 : Fin (n + 1) → Rank Ω 𝕜) (m : ℕ) (dn : List String)
    (i : Fin (n + 1)) (k : String) :
    (regAfter E r0 m dn i).lookup k
      = if k ∈ dn then some (stored (isMaster i)
          ((List.ofFn (fun j => after E r0 m j)).map (fun b => rankMean b.samples k)))
        else (r0 i).reg.lookup k := by
  unfold regAfter
  induction dn using List.reverseRecOn with
  | nil => simp
  | append_singleton dn x ih =>
    rw [List.foldl_append]
    simp only [List.foldl_cons, List.foldl_nil]
    by_cases hx : k = x
    · subst hx
      rw [lookup_put_self]
      simp
    · rw [lookup_put_ne _ _ _ _ hx, ih]
      simp [hx]

end QLPeps.Measurer
