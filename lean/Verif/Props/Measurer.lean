import Verif.Lemmas.Measurer
import Verif.Lemmas.Observables
import Verif.Props.Statistics
import Verif.Props.PsiConsistency

/-!
# Properties C122-C125: measurement on several processes, with signals

`start E r0 flags` is the call of `Measure_` on `n + 1` processes whose members are `r0` and whose signal
flags are `flags`; a run is a sequence of `Step`s: moves of the program in any order allowed by MPI, and
signals at any time. `engAfter`, `sampleAt` and `ratesAt` (Spec/Measurer) say what a process measures on
its own.
-/

namespace QLPeps.Measurer

open QLPeps.Observables Relation

variable {Ω 𝕜 : Type*} [RCLike 𝕜] {n : ℕ}

/-! ## C122 -/

/-- **C122** No deadlock: whatever signals arrived and however the processes were scheduled, either all
processes have returned or some process can go on. -/
theorem C122_progress (E : Env Ω 𝕜) (r0 : Fin (n + 1) → Rank Ω 𝕜) (flags : Fin (n + 1) → Bool)
    (hk : SameKeys E r0) (s : Sys Ω 𝕜 n) (hs : ReflTransGen (Step E) (start E r0 flags) s) :
    s.done ∨ ∃ t, Move E s t := by
  obtain ⟨p, h⟩ := start_shape hk flags
  obtain ⟨m, p, dn, c, h, _⟩ := steps_shape hk hs h
  exact progress h

/-- **C122** Every run ends: there is a bound on the number of steps. -/
theorem C122_terminates (E : Env Ω 𝕜) (r0 : Fin (n + 1) → Rank Ω 𝕜) (flags : Fin (n + 1) → Bool)
    (hk : SameKeys E r0) :
    ∃ bound : ℕ, ∀ k s, Path (Step E) k (start E r0 flags) s → k ≤ bound := by
  obtain ⟨p, h⟩ := start_shape hk flags
  let B := (Finset.range (E.samples + 1)).sup (fun m => (keysAt E r0 m).length)
  have hB : ∀ m ≤ E.samples, (keysAt E r0 m).length ≤ B := fun m hm =>
    Finset.le_sup (f := fun m => (keysAt E r0 m).length) (Finset.mem_range.2 (by omega))
  refine ⟨fuel E B (start E r0 flags), fun k s hp => ?_⟩
  have := fuel_path hk hp h hB
  omega

/-- **C122** When all processes have returned, all have added the same number `m` of samples: the first
`m` of their own chains. `m` is the requested number unless some process received a signal. -/
theorem C122_agree (E : Env Ω 𝕜) (r0 : Fin (n + 1) → Rank Ω 𝕜) (flags : Fin (n + 1) → Bool)
    (hk : SameKeys E r0) (s : Sys Ω 𝕜 n) (hs : ReflTransGen (Step E) (start E r0 flags) s)
    (hd : s.done) :
    ∃ m ≤ E.samples,
      (∀ i, (s.ranks i).samples
        = (r0 i).samples ++ (List.range m).map (fun k => (sampleAt E (r0 i).eng k).1)) ∧
      (∀ i, (s.ranks i).eng = engAfter E (r0 i).eng m) ∧
      (m < E.samples → ∃ i, s.flags i = true) := by
  obtain ⟨p, h⟩ := start_shape hk flags
  obtain ⟨m, p, dn, c, h, _⟩ := steps_shape hk hs h
  have hp : p = .fin := by
    have := hd 0
    rwa [h.ranks 0, snap_phase] at this
  subst hp
  refine ⟨m, h.le, fun i => ?_, fun i => ?_, fun hlt => h.stopped (by simp) hlt⟩
  · rw [h.ranks i, snap_samples]
    exact bodies_samples E _ m _
  · rw [h.ranks i]
    exact bodies_eng E _ m _

/-- a process whose flag is set stops everybody at its next check -/
theorem prompt_aux {E : Env Ω 𝕜} {r0 : Fin (n + 1) → Rank Ω 𝕜} (hk : SameKeys E r0)
    (i : Fin (n + 1)) (M : ℕ) {s t : Sys Ω 𝕜 n} (hst : ReflTransGen (Step E) s t)
    (h0 : ∃ m p dn c, Shape E r0 s m p dn c ∧ m ≤ M ∧
      (p = .loop M → ∀ q, s.posted i = some q → q.flag = true)) (hf : s.flags i = true) :
    t.flags i = true ∧ ∃ m p dn c, Shape E r0 t m p dn c ∧ m ≤ M ∧
      (p = .loop M → ∀ q, t.posted i = some q → q.flag = true) := by
  induction hst with
  | refl => exact ⟨hf, h0⟩
  | tail _ hst ih =>
    obtain ⟨hfl, m, p, dn, c, h, hm, hq⟩ := ih
    rcases hst with hst | hst
    · cases hst with
      | arrive j h1 hfin =>
        refine ⟨hfl, m, p, dn, c, arrive_shape h j hfin, hm, ?_⟩
        intro hp q hpost
        by_cases hij : i = j
        · subst hij
          simp only [Function.update_self, Option.some.injEq] at hpost
          rw [← hpost, h.ranks i, hp, hfl]
          rfl
        · simp only [Function.update_of_ne hij] at hpost
          exact hq hp q hpost
      | complete q hqs hkind =>
        obtain ⟨m', p', dn', c', h1, h2, h3⟩ := resume_shape hk h q hqs
        refine ⟨hfl, m', p', dn', c', h1, ?_, fun _ q hx => by cases hx⟩
        rcases h3 with ⟨hp, ⟨_, hm', _⟩ | ⟨hno, hm'⟩⟩ | ⟨_, hm', _⟩
        · omega
        · by_contra hlt
          have : m = M := by omega
          subst this
          have h4 := hq hp (q i) (hqs i)
          rw [hno i] at h4
          cases h4
        · omega
    · cases hst with
      | signal j hfj =>
        refine ⟨?_, m, p, dn, c, signal_shape h j, hm, hq⟩
        by_cases hij : i = j
        · subst hij; simp
        · simpa [Function.update_of_ne hij] using hfl

theorem samples_length {E : Env Ω 𝕜} {r0 : Fin (n + 1) → Rank Ω 𝕜} {s : Sys Ω 𝕜 n}
    {m : ℕ} {p : Phase} {dn : List String} {c : Bool} (h : Shape E r0 s m p dn c) (i : Fin (n + 1)) :
    (s.ranks i).samples.length = (r0 i).samples.length + m := by
  rw [h.ranks i, snap_samples]
  have := bodies_samples E (isMaster i) m (fresh r0 i)
  rw [show (after E r0 m i).samples = _ from this]
  simp [fresh]

/-- **C122** A signal is obeyed promptly: after it reached process `i`, every process takes at most one
more sample, and none at all if `i` has not yet entered its next check. -/
theorem C122_prompt (E : Env Ω 𝕜) (r0 : Fin (n + 1) → Rank Ω 𝕜) (flags : Fin (n + 1) → Bool)
    (hk : SameKeys E r0) (s t : Sys Ω 𝕜 n) (hs : ReflTransGen (Step E) (start E r0 flags) s)
    (hst : ReflTransGen (Step E) s t) (i : Fin (n + 1)) (hi : s.flags i = true) (j : Fin (n + 1)) :
    (t.ranks j).samples.length ≤ (s.ranks j).samples.length + 1 ∧
      (s.posted i = none → (t.ranks j).samples.length = (s.ranks j).samples.length) := by
  obtain ⟨p, h⟩ := start_shape hk flags
  obtain ⟨m, p, dn, c, h, _⟩ := steps_shape hk hs h
  constructor
  · obtain ⟨_, m', p', dn', c', h', hm', _⟩ := prompt_aux hk i (m + 1) hst
      ⟨m, p, dn, c, h, by omega, fun hp => by
        have := h.pos
        rw [hp] at this
        cases this⟩ hi
    rw [samples_length h, samples_length h']
    omega
  · intro hpost
    obtain ⟨_, m', p', dn', c', h', hm', _⟩ := prompt_aux hk i m hst
      ⟨m, p, dn, c, h, le_rfl, fun _ q hq => by rw [hpost] at hq; cases hq⟩ hi
    obtain ⟨m'', p'', dn'', c'', h'', hle⟩ := steps_shape hk hst h
    have e1 := samples_length h' j
    have e2 := samples_length h'' j
    rw [samples_length h, samples_length h']
    omega

/-- **C122** The signal flag outlives the run: if any process still has its flag set when `Measure_` is
called again (nothing resets it), no process takes a sample and the engines stay as they are. -/
theorem C122_flag_stays (E : Env Ω 𝕜) (r0 : Fin (n + 1) → Rank Ω 𝕜) (flags : Fin (n + 1) → Bool)
    (hk : SameKeys E r0) (i : Fin (n + 1)) (hi : flags i = true) (s : Sys Ω 𝕜 n)
    (hs : ReflTransGen (Step E) (start E r0 flags) s) (hd : s.done) (j : Fin (n + 1)) :
    (s.ranks j).samples = (r0 j).samples ∧ (s.ranks j).eng = (r0 j).eng := by
  have h1 := (C122_prompt E r0 flags hk _ s .refl hs i hi j).2 rfl
  obtain ⟨m, _, hsm, heng, _⟩ := C122_agree E r0 flags hk s hs hd
  have h2 : ((start E r0 flags).ranks j).samples = (r0 j).samples := by
    show (begin E (r0 j)).samples = _
    unfold begin enter
    split_ifs <;> rfl
  rw [h2, hsm j, List.length_append, List.length_map, List.length_range] at h1
  have hm : m = 0 := by omega
  subst hm
  exact ⟨by rw [hsm j]; simp, heng j⟩

/-! ## C123 -/

theorem SameShape.keys {E : Env Ω 𝕜} {r0 : Fin (n + 1) → Rank Ω 𝕜} {M : ℕ} {sk : List (String × ℕ)}
    (h : SameShape E r0 M sk) : SameKeys E r0 := by
  have key : ∀ o : ObsMap 𝕜, o.map (fun e => (e.1, e.2.length)) = sk →
      o.map Prod.fst = sk.map Prod.fst := by
    intro o ho
    rw [← ho, List.map_map]
    rfl
  refine ⟨fun x y => by rw [key _ (h.observe x), key _ (h.observe y)], fun i => ?_⟩
  have all : ∀ i, (r0 i).samples.map (fun o => o.map Prod.fst)
      = List.replicate M (sk.map Prod.fst) := by
    intro i
    rw [List.eq_replicate_iff]
    refine ⟨by simp [h.number i], ?_⟩
    intro b hb
    obtain ⟨o, ho, rfl⟩ := List.mem_map.1 hb
    exact key o (h.shape i o ho)
  rw [all i, all 0]

theorem doubleAverage_flatten {α : Type*} (rs : List (List α)) (M : ℕ) (h : ∀ r ∈ rs, r.length = M)
    (f : α → 𝕜) :
    Statistics.average (rs.map (fun r => Statistics.average (r.map f)))
      = Statistics.average (rs.flatten.map f) := by
  have hlen : rs.flatten.length = rs.length * M := by
    clear f
    induction rs with
    | nil => simp
    | cons r rs ih =>
      rw [List.flatten_cons, List.length_append, h r List.mem_cons_self,
        ih (fun r' h' => h r' (List.mem_cons_of_mem _ h')), List.length_cons]
      ring
  have hsum : (rs.map (fun r => Statistics.average (r.map f))).sum
      = ((rs.flatten.map f).sum) / (M : 𝕜) := by
    clear hlen
    induction rs with
    | nil => simp
    | cons r rs ih =>
      rw [List.map_cons, List.sum_cons, ih (fun r' h' => h r' (List.mem_cons_of_mem _ h')),
        List.flatten_cons, List.map_append, List.sum_append, add_div]
      congr 1
      simp [Statistics.average, h r List.mem_cons_self]
  unfold Statistics.average at hsum ⊢
  rw [hsum, List.length_map, List.length_map, hlen, div_div, Nat.cast_mul, mul_comm]

theorem final_shape {E : Env Ω 𝕜} {r0 : Fin (n + 1) → Rank Ω 𝕜} {flags : Fin (n + 1) → Bool}
    (hk : SameKeys E r0) {s : Sys Ω 𝕜 n} (hs : ReflTransGen (Step E) (start E r0 flags) s)
    (hd : s.done) : ∃ m, Shape E r0 s m .fin (keysAt E r0 m) true := by
  obtain ⟨p, h⟩ := start_shape hk flags
  obtain ⟨m, p, dn, c, h, _⟩ := steps_shape hk hs h
  have hp : p = .fin := by
    have := hd 0
    rwa [h.ranks 0, snap_phase] at this
  subst hp
  refine ⟨m, ?_⟩
  have := h.pos
  generalize hf : Phase.fin = p at this
  cases this with
  | fin => exact h
  | loop _ => cases hf
  | gather => cases hf
  | dirs => cases hf
  | count => cases hf
  | files => cases hf

/-- **C123** The statistics of the master are those of exactly the collected samples. For every observable
of the solver and every entry, the master holds the average over all samples of all processes, whether the
run was completed or stopped by a signal; entries of other keys stay as they were; with no sample at all
nothing changes. -/
theorem C123_statistics (E : Env Ω 𝕜) (r0 : Fin (n + 1) → Rank Ω 𝕜) (flags : Fin (n + 1) → Bool)
    (M : ℕ) (sk : List (String × ℕ)) (hsh : SameShape E r0 M sk)
    (ho : ∀ ks, (E.order ks).Perm ks) (s : Sys Ω 𝕜 n)
    (hs : ReflTransGen (Step E) (start E r0 flags) s) (hd : s.done) :
    (∀ k len, (k, len) ∈ sk → (s.ranks 0).samples ≠ [] →
      ∃ l, (s.ranks 0).reg.lookup k = some (some l) ∧ l.length = len ∧
        ∀ j < len, l.getD j 0
          = Statistics.average ((List.ofFn (fun i => (s.ranks i).samples)).flatten.map (value k j))) ∧
    (∀ k, k ∉ sk.map Prod.fst → (s.ranks 0).reg.lookup k = (r0 0).reg.lookup k) ∧
    ((s.ranks 0).samples = [] → ∀ k, (s.ranks 0).reg.lookup k = (r0 0).reg.lookup k) := by
  have hk := hsh.keys
  obtain ⟨m, h⟩ := final_shape hk hs hd
  have hsamp : ∀ i, (s.ranks i).samples = (after E r0 m i).samples := fun i => by
    rw [h.ranks i, snap_samples]
  have hlen : ∀ i, (after E r0 m i).samples.length = M + m := fun i => by
    rw [← hsamp i, samples_length h i, hsh.number i]
  have hshape : ∀ i, ∀ o ∈ (after E r0 m i).samples, lens o = sk := by
    intro i o hmem
    rw [show (after E r0 m i).samples = _ from bodies_samples E (isMaster i) m (fresh r0 i)] at hmem
    rcases List.mem_append.1 hmem with hmem | hmem
    · exact hsh.shape i o hmem
    · obtain ⟨k, _, rfl⟩ := List.mem_map.1 hmem
      exact hsh.observe _
  have hreg : ∀ k, (s.ranks 0).reg.lookup k = if k ∈ keysAt E r0 m then some (stored (isMaster (0 : Fin (n + 1)))
          ((List.ofFn (fun j => after E r0 m j)).map (fun b => rankMean b.samples k)))
        else (r0 0).reg.lookup k := by
    intro k
    rw [h.ranks 0, snap_reg, lookup_regAfter]
  have hmem : ∀ k, k ∈ keysAt E r0 m → k ∈ sk.map Prod.fst ∧ (after E r0 m 0).samples ≠ [] := by
    intro k hkk
    have := (ho _).mem_iff.1 hkk
    unfold keysOf at this
    rw [List.mem_reverse, List.mem_dedup, List.mem_reverse, List.mem_flatten] at this
    obtain ⟨ks, h1, h2⟩ := this
    obtain ⟨o, h3, rfl⟩ := List.mem_map.1 h1
    refine ⟨?_, List.ne_nil_of_mem h3⟩
    rw [← hshape 0 o h3, lens_keys]
    exact h2
  refine ⟨?_, ?_, ?_⟩
  · intro k len hkl hne
    rw [hsamp] at hne
    have hin : k ∈ keysAt E r0 m := by
      refine (ho _).mem_iff.2 ?_
      unfold keysOf
      rw [List.mem_reverse, List.mem_dedup, List.mem_reverse, List.mem_flatten]
      obtain ⟨o, rest, ho'⟩ := List.exists_cons_of_ne_nil hne
      have hm : o ∈ (after E r0 m 0).samples := by rw [ho']; exact List.mem_cons_self
      refine ⟨_, List.mem_map.2 ⟨o, hm, rfl⟩, ?_⟩
      rw [← lens_keys, hshape 0 o hm]
      exact List.mem_map.2 ⟨_, hkl, rfl⟩
    have hpos : 0 < M + m := by
      rw [← hlen 0]
      exact List.length_pos_iff.2 hne
    obtain ⟨l, e, hl, g⟩ := gatherKey_spec (List.ofFn (fun j => (after E r0 m j).samples)) sk hsh.nodup
      (by simp) (by
        intro r hr
        obtain ⟨i, rfl⟩ := (List.mem_ofFn' _ _).1 hr
        rw [← List.length_pos_iff, hlen i]
        exact hpos) (by
        intro r hr o hor
        obtain ⟨i, rfl⟩ := (List.mem_ofFn' _ _).1 hr
        exact hshape i o hor) k len hkl
    refine ⟨l, ?_, hl, ?_⟩
    · rw [hreg k, if_pos hin, ← e]
      congr 1
      unfold stored gatherKey
      simp only [isMaster, decide_true, if_true]
      rw [show (List.ofFn (fun j => (after E r0 m j).samples))
        = (List.ofFn (fun j => after E r0 m j)).map (fun b => b.samples) by
          rw [List.map_ofFn]; rfl]
      rw [List.mapM_map, List.mapM_map]
      rfl
    · intro j hj
      rw [g j hj]
      unfold doubleAverage
      rw [doubleAverage_flatten _ (M + m)]
      · simp only [hsamp]
        rfl
      · intro r hr
        obtain ⟨i, rfl⟩ := (List.mem_ofFn' _ _).1 hr
        exact hlen i
  · intro k hnk
    rw [hreg k, if_neg (fun hin => hnk (hmem k hin).1)]
  · intro hemp k
    rw [hsamp] at hemp
    rw [hreg k, if_neg (fun hin => (hmem k hin).2 hemp)]

/-- **C123** Every other process ends with an empty list for each observable of the solver, and with its old entries for all other
keys. -/
theorem C123_other_processes (E : Env Ω 𝕜) (r0 : Fin (n + 1) → Rank Ω 𝕜) (flags : Fin (n + 1) → Bool)
    (M : ℕ) (sk : List (String × ℕ)) (hsh : SameShape E r0 M sk)
    (ho : ∀ ks, (E.order ks).Perm ks) (s : Sys Ω 𝕜 n)
    (hs : ReflTransGen (Step E) (start E r0 flags) s) (hd : s.done) (i : Fin (n + 1)) (hi : i ≠ 0) :
    (∀ k ∈ sk.map Prod.fst, (s.ranks i).samples ≠ [] → (s.ranks i).reg.lookup k = some (some [])) ∧
    (∀ k, k ∉ sk.map Prod.fst → (s.ranks i).reg.lookup k = (r0 i).reg.lookup k) := by
  have hk := hsh.keys
  obtain ⟨m, h⟩ := final_shape hk hs hd
  have hsamp : ∀ i, (s.ranks i).samples = (after E r0 m i).samples := fun i => by
    rw [h.ranks i, snap_samples]
  have hlen : ∀ i, (after E r0 m i).samples.length = M + m := fun i => by
    rw [← hsamp i, samples_length h i, hsh.number i]
  have hshape : ∀ i, ∀ o ∈ (after E r0 m i).samples, lens o = sk := by
    intro i o hmem
    rw [show (after E r0 m i).samples = _ from bodies_samples E (isMaster i) m (fresh r0 i)] at hmem
    rcases List.mem_append.1 hmem with hmem | hmem
    · exact hsh.shape i o hmem
    · obtain ⟨k, _, rfl⟩ := List.mem_map.1 hmem
      exact hsh.observe _
  have hreg : ∀ k, (s.ranks i).reg.lookup k = if k ∈ keysAt E r0 m then some (stored (isMaster i)
          ((List.ofFn (fun j => after E r0 m j)).map (fun b => rankMean b.samples k)))
        else (r0 i).reg.lookup k := by
    intro k
    rw [h.ranks i, snap_reg, lookup_regAfter]
  refine ⟨fun k hks hne => ?_, fun k hnk => ?_⟩
  · have hin : k ∈ keysAt E r0 m := by
      refine (ho _).mem_iff.2 ?_
      unfold keysOf
      rw [List.mem_reverse, List.mem_dedup, List.mem_reverse, List.mem_flatten]
      have hne : (after E r0 m 0).samples ≠ [] := by
        rw [hsamp] at hne
        rw [← List.length_pos_iff] at hne ⊢
        rw [hlen] at hne ⊢
        exact hne
      obtain ⟨o, rest, ho'⟩ := List.exists_cons_of_ne_nil hne
      have hm : o ∈ (after E r0 m 0).samples := by rw [ho']; exact List.mem_cons_self
      refine ⟨_, List.mem_map.2 ⟨o, hm, rfl⟩, ?_⟩
      rw [← lens_keys, hshape 0 o hm]
      exact hks
    rw [hreg k, if_pos hin]
    unfold stored
    simp [isMaster, hi]
  · rw [hreg k, if_neg]
    intro hin
    have := (ho _).mem_iff.1 hin
    unfold keysOf at this
    rw [List.mem_reverse, List.mem_dedup, List.mem_reverse, List.mem_flatten] at this
    obtain ⟨ks, h1, h2⟩ := this
    obtain ⟨o, h3, rfl⟩ := List.mem_map.1 h1
    refine hnk ?_
    rw [← hshape 0 o h3, lens_keys]
    exact h2

/-- **C123** The number of samples in the metadata is the number of rows of all `psi.csv` together, and
each process has one row per sample. -/
theorem C123_total (E : Env Ω 𝕜) (r0 : Fin (n + 1) → Rank Ω 𝕜) (flags : Fin (n + 1) → Bool)
    (hk : SameKeys E r0) (h0 : ∀ i, (r0 i).psi.length = (r0 i).samples.length) (s : Sys Ω 𝕜 n)
    (hs : ReflTransGen (Step E) (start E r0 flags) s) (hd : s.done) :
    (∀ i, (s.ranks i).psi.length = (s.ranks i).samples.length) ∧
      (s.ranks 0).total = some (∑ i, (s.ranks i).samples.length) := by
  obtain ⟨m, h⟩ := final_shape hk hs hd
  have hpsi : ∀ (master : Bool) (m : ℕ) (b : Rank Ω 𝕜),
      (bodies E master m b).psi.length = b.psi.length + m := by
    intro master m b
    induction m with
    | zero => rfl
    | succ m ih =>
      show (body E master m (bodies E master m b)).psi.length = _
      unfold body
      dsimp only
      rw [(record_fields E master _).2.2.1, List.length_append]
      dsimp only
      rw [ih]
      simp
      omega
  have h1 : ∀ i, (s.ranks i).psi.length = (s.ranks i).samples.length := by
    intro i
    rw [samples_length h i, h.ranks i, snap_psi]
    exact (hpsi _ m _).trans (by rw [← h0 i]; rfl)
  refine ⟨h1, ?_⟩
  have : (s.ranks 0).total = totalAfter E r0 m true 0 := by rw [h.ranks 0]; rfl
  rw [this]
  unfold totalAfter
  simp only [isMaster, decide_true, Bool.and_self, if_true, Option.some.injEq]
  rw [List.map_ofFn, List.sum_ofFn]
  refine Finset.sum_congr rfl (fun i _ => ?_)
  rw [← h1 i, h.ranks i, snap_psi]
  rfl

/-- **C123** The hypothesis on the shape is met by every solver of the library except the t-J solver
with pair correlations: on a non-empty lattice the keys and lengths do not depend on the sample. -/
theorem C123_solvers (solver : Solver) (ly lx horizon : ℕ) (hly : 0 < ly) (vals : Ω → Vals 𝕜)
    (E : Env Ω 𝕜)
    (hE : ∀ x, evaluate solver ly lx horizon (vals x) = some (E.observe x).2.1)
    (x0 : Ω) (r0 : Fin (n + 1) → Rank Ω 𝕜) (h0 : ∀ i, (r0 i).samples = []) :
    ∃ sk, SameShape E r0 0 sk ∧ (E.observe x0).2.1.map Prod.fst = sk.map Prod.fst := by
  have hsk : ∀ x, skeleton solver ly lx = some (lens (E.observe x).2.1) := fun x => by
    rw [← lens_evaluate solver ly lx horizon hly (vals x), hE x]
    rfl
  refine ⟨lens (E.observe x0).2.1, ⟨nodup_skeleton solver ly lx _ (hsk x0), fun x => ?_, ?_, ?_⟩, ?_⟩
  · have := (hsk x).symm.trans (hsk x0)
    exact Option.some.inj this
  · intro i o ho
    rw [h0 i] at ho
    cases ho
  · intro i
    rw [h0 i]; rfl
  · rw [lens_keys]

/-! ## C124 -/

/-- **C124** (partial: only for solvers that store the summary) Row `k` of `psi.csv` of process `i` is the
summary (C120) of the amplitudes of its sample `k`. -/
theorem C124_rows_partial (E : Env Ω 𝕜) (r0 : Fin (n + 1) → Rank Ω 𝕜) (flags : Fin (n + 1) → Bool)
    (hk : SameKeys E r0) (amplitudes : Ω → List 𝕜)
    (hE : ∀ x, (E.observe x).2.2 = storedSummary true (amplitudes x))
    (s : Sys Ω 𝕜 n) (hs : ReflTransGen (Step E) (start E r0 flags) s) (hd : s.done)
    (i : Fin (n + 1)) (hc : (r0 i).cache = none) :
    ∃ m, (s.ranks i).samples.length = (r0 i).samples.length + m ∧
      (s.ranks i).psi = (r0 i).psi ++ (List.range m).map
        (fun k => Psi.summary (amplitudes (E.sweep (engAfter E (r0 i).eng k)).1)) := by
  obtain ⟨m, h⟩ := final_shape hk hs hd
  refine ⟨m, samples_length h i, ?_⟩
  rw [h.ranks i, snap_psi, show (after E r0 m i).psi = _ from bodies_psi E (isMaster i) m (fresh r0 i) hc]
  refine congrArg _ (List.map_congr_left (fun k _ => ?_))
  unfold sampleAt
  rw [hE]
  rfl

/-- **C124** For a solver that collects the amplitudes and drops them every row is zero. -/
theorem C124_dropped (E : Env Ω 𝕜) (r0 : Fin (n + 1) → Rank Ω 𝕜) (flags : Fin (n + 1) → Bool)
    (hk : SameKeys E r0) (amplitudes : Ω → List 𝕜)
    (hE : ∀ x, (E.observe x).2.2 = storedSummary false (amplitudes x))
    (s : Sys Ω 𝕜 n) (hs : ReflTransGen (Step E) (start E r0 flags) s) (hd : s.done)
    (i : Fin (n + 1)) (hc : (r0 i).cache = none) :
    ∃ m, (s.ranks i).samples.length = (r0 i).samples.length + m ∧
      (s.ranks i).psi = (r0 i).psi ++ List.replicate m ⟨0, 0⟩ := by
  obtain ⟨m, h⟩ := final_shape hk hs hd
  refine ⟨m, samples_length h i, ?_⟩
  rw [h.ranks i, snap_psi, show (after E r0 m i).psi = _ from bodies_psi E (isMaster i) m (fresh r0 i) hc]
  refine congrArg _ ?_
  rw [List.eq_replicate_iff]
  refine ⟨by simp, fun b hb => ?_⟩
  obtain ⟨k, _, rfl⟩ := List.mem_map.1 hb
  unfold sampleAt
  rw [hE]
  simp [storedSummary, psiSummary, Psi.summary]

/-! ## C125 -/

open Classical in
theorem bodies_printed (E : Env Ω 𝕜) (master : Bool) (m : ℕ) (b : Rank Ω 𝕜) :
    ∃ rows : List (Psi.Summary 𝕜), rows.length = m ∧ (bodies E master m b).psi = b.psi ++ rows ∧
      (E.warnEnabled = true ∧ (E.warnMasterOnly = false ∨ master = true) →
        (bodies E master m b).printed
          = b.printed ++ (rows.filter (fun r => E.warnThreshold < r.relErr)).take (E.warnMax - b.warned) ∧
        (bodies E master m b).warned = b.warned +
          min ((rows.filter (fun r => E.warnThreshold < r.relErr)).length) (E.warnMax - b.warned)) ∧
      (¬ (E.warnEnabled = true ∧ (E.warnMasterOnly = false ∨ master = true)) →
        (bodies E master m b).printed = b.printed ∧ (bodies E master m b).warned = b.warned) := by
  induction m with
  | zero => exact ⟨[], rfl, by simp [bodies], fun _ => by simp [bodies], fun _ => by simp [bodies]⟩
  | succ m ih =>
    obtain ⟨rows, hl, hp, hw, hn⟩ := ih
    set c := bodies E master m b with hcdef
    have hb : bodies E master (m + 1) b = body E master m c := rfl
    rw [hb]
    set d : Rank Ω 𝕜 := { c with
      eng := (E.observe (E.sweep c.eng).1).1
      accum := accumulate m c.accum (E.sweep c.eng).2
      samples := c.samples ++ [(E.observe (E.sweep c.eng).1).2.1]
      cache := (E.observe (E.sweep c.eng).1).2.2.orElse (fun _ => c.cache) } with hd
    have hbd : body E master m c = record E master d := rfl
    rw [hbd]
    set p := psiSummary d.cache with hpdef
    have hdp : d.psi = c.psi := rfl
    have hdw : d.warned = c.warned := rfl
    have hdr : d.printed = c.printed := rfl
    refine ⟨rows ++ [p], by simp [hl], ?_, ?_, ?_⟩
    · rw [(record_fields E master d).2.2.1, hdp, hp, List.append_assoc]
    · intro he
      obtain ⟨h1, h2⟩ := hw he
      rw [List.filter_append]
      unfold record
      dsimp only
      rw [← hpdef]
      by_cases ht : E.warnThreshold < p.relErr
      · rw [List.filter_cons_of_pos (by simpa using ht), List.filter_nil]
        set F := rows.filter (fun r => E.warnThreshold < r.relErr) with hF
        by_cases hlt : F.length < E.warnMax - b.warned
        · rw [if_pos ⟨he.1, he.2, ht, by rw [hdw, h2]; omega⟩]
          refine ⟨?_, ?_⟩
          · rw [hdr, h1, List.take_of_length_le hlt.le, List.take_of_length_le (by simp; omega),
              List.append_assoc]
          · dsimp only
            rw [hdw, h2, List.length_append]
            simp only [List.length_cons, List.length_nil]
            omega
        · rw [if_neg (by rintro ⟨_, _, _, h⟩; rw [hdw, h2] at h; omega)]
          refine ⟨?_, ?_⟩
          · rw [hdr, h1, List.take_append_of_le_length (by omega)]
          · dsimp only
            rw [hdw, h2, List.length_append]
            simp only [List.length_cons, List.length_nil]
            omega
      · rw [if_neg (by rintro ⟨_, _, h, _⟩; exact ht h), List.filter_cons_of_neg (by simpa using ht),
          List.filter_nil, List.append_nil]
        exact ⟨h1, h2⟩
    · intro he
      unfold record
      dsimp only
      rw [if_neg (by rintro ⟨h1, h2, _⟩; exact he ⟨h1, h2⟩)]
      exact hn he

open Classical in
/-- **C125** (partial: only for the first measurer of the process) Of the rows the run adds to its
`psi.csv`, a process that reports prints the first `max_warnings` that exceed the threshold; a process that
does not report prints nothing. -/
theorem C125_warnings_partial (E : Env Ω 𝕜) (r0 : Fin (n + 1) → Rank Ω 𝕜) (flags : Fin (n + 1) → Bool)
    (hk : SameKeys E r0) (s : Sys Ω 𝕜 n) (hs : ReflTransGen (Step E) (start E r0 flags) s)
    (hd : s.done) (i : Fin (n + 1)) (hw : (r0 i).warned = 0) :
    ∃ rows, (s.ranks i).psi = (r0 i).psi ++ rows ∧
      (reports E i → (s.ranks i).printed
        = (r0 i).printed ++ (rows.filter (fun r => inconsistent E r)).take E.warnMax) ∧
      (¬ reports E i → (s.ranks i).printed = (r0 i).printed) := by
  obtain ⟨m, h⟩ := final_shape hk hs hd
  obtain ⟨rows, _, hp, h1, h2⟩ := bodies_printed E (isMaster i) m (fresh r0 i)
  have hm : isMaster i = true ↔ i = 0 := by simp [isMaster]
  have e1 : (s.ranks i).printed = (bodies E (isMaster i) m (fresh r0 i)).printed := by
    rw [h.ranks i]; rfl
  have e2 : (s.ranks i).psi = (bodies E (isMaster i) m (fresh r0 i)).psi := by
    rw [h.ranks i]; rfl
  refine ⟨rows, e2.trans hp, fun hr => ?_, fun hr => ?_⟩
  · have := (h1 ⟨hr.1, hr.2.imp_right hm.2⟩).1
    rw [e1, this, show (fresh r0 i).warned = 0 from hw]
    rfl
  · rw [e1]
    exact (h2 (fun hx => hr ⟨hx.1, hx.2.imp_right hm.1⟩)).1

open Classical in
/-- **C125** The general case: the limit is shared by all measurers of the process. -/
theorem C125_shared (E : Env Ω 𝕜) (r0 : Fin (n + 1) → Rank Ω 𝕜) (flags : Fin (n + 1) → Bool)
    (hk : SameKeys E r0) (s : Sys Ω 𝕜 n) (hs : ReflTransGen (Step E) (start E r0 flags) s)
    (hd : s.done) (i : Fin (n + 1)) :
    ∃ rows, (s.ranks i).psi = (r0 i).psi ++ rows ∧
      (reports E i → (s.ranks i).printed = (r0 i).printed ++
        (rows.filter (fun r => inconsistent E r)).take (E.warnMax - (r0 i).warned)) ∧
      (E.warnMax ≤ (r0 i).warned → (s.ranks i).printed = (r0 i).printed) := by
  obtain ⟨m, h⟩ := final_shape hk hs hd
  obtain ⟨rows, _, hp, h1, h2⟩ := bodies_printed E (isMaster i) m (fresh r0 i)
  have hm : isMaster i = true ↔ i = 0 := by simp [isMaster]
  have e1 : (s.ranks i).printed = (bodies E (isMaster i) m (fresh r0 i)).printed := by
    rw [h.ranks i]; rfl
  have e2 : (s.ranks i).psi = (bodies E (isMaster i) m (fresh r0 i)).psi := by
    rw [h.ranks i]; rfl
  refine ⟨rows, e2.trans hp, fun hr => ?_, fun hr => ?_⟩
  · have := (h1 ⟨hr.1, hr.2.imp_right hm.2⟩).1
    rw [e1, this]
    rfl
  · by_cases hr' : reports E i
    · have := (h1 ⟨hr'.1, hr'.2.imp_right hm.2⟩).1
      rw [e1, this, show (fresh r0 i).warned = (r0 i).warned from rfl, Nat.sub_eq_zero_of_le hr]
      simp [fresh]
    · rw [e1]
      exact (h2 (fun hx => hr' ⟨hx.1, hx.2.imp_right hm.1⟩)).1

/-! ## C126 -/

/-- entry `j` of the printed rates, if every sweep returns `r` rates -/
theorem bodies_rate (E : Env Ω 𝕜) (master : Bool) (r : ℕ) (hr : ∀ x, (E.sweep x).2.length = r)
    (b : Rank Ω 𝕜) (m : ℕ) :
    (bodies E master (m + 1) b).accum.length = r ∧ ∀ j < r,
      (bodies E master (m + 1) b).accum.getD j 0
        = ∑ k ∈ Finset.range (m + 1), (ratesAt E b.eng k).getD j 0 := by
  rw [bodies_accum]
  have hlen : ∀ k, (ratesAt E b.eng k).length = r := fun k => hr _
  induction m with
  | zero => simp [hlen]
  | succ m ih =>
    rw [List.range_succ, List.foldl_append]
    simp only [List.foldl_cons, List.foldl_nil]
    refine ⟨by rw [List.length_zipWith, ih.1, hlen, min_self], fun j hj => ?_⟩
    rw [Finset.sum_range_succ, ← ih.2 j hj]
    have h1 : j < ((List.range m).foldl (fun a k => List.zipWith (· + ·) a (ratesAt E b.eng (k + 1)))
        (ratesAt E b.eng 0)).length := by rw [ih.1]; exact hj
    have h2 : j < (ratesAt E b.eng (m + 1)).length := by rw [hlen]; exact hj
    simp [List.getD_eq_getElem?_getD, h1, h2]

/-- **C126** (partial: only if the run was not stopped by a signal) The acceptance rates a process prints
are the averages of the rates of its sweeps. -/
theorem C126_rates_partial (E : Env Ω 𝕜) (r0 : Fin (n + 1) → Rank Ω 𝕜) (flags : Fin (n + 1) → Bool)
    (hk : SameKeys E r0) (r : ℕ) (hr : ∀ x, (E.sweep x).2.length = r) (s : Sys Ω 𝕜 n)
    (hs : ReflTransGen (Step E) (start E r0 flags) s) (hd : s.done) (hno : ∀ i, s.flags i = false)
    (hpos : 0 < E.samples) (i : Fin (n + 1)) :
    (printedRates E (s.ranks i)).length = r ∧ ∀ j < r, (printedRates E (s.ranks i)).getD j 0
      = Statistics.average ((List.range E.samples).map (fun k => (ratesAt E (r0 i).eng k).getD j 0)) := by
  obtain ⟨m, h⟩ := final_shape hk hs hd
  have hm : m = E.samples := by
    by_contra hne
    obtain ⟨i, hi⟩ := h.stopped (by simp) (lt_of_le_of_ne h.le hne)
    rw [hno i] at hi
    cases hi
  subst hm
  obtain ⟨m, hm⟩ := Nat.exists_eq_succ_of_ne_zero hpos.ne'
  have hacc : (s.ranks i).accum = (bodies E (isMaster i) (m + 1) (fresh r0 i)).accum := by
    rw [h.ranks i, hm]; rfl
  obtain ⟨h1, h2⟩ := bodies_rate E (isMaster i) r hr (fresh r0 i) m
  unfold printedRates
  rw [hacc]
  refine ⟨by rw [List.length_map, h1], fun j hj => ?_⟩
  have := h2 j hj
  have hj' : j < (bodies E (isMaster i) (m + 1) (fresh r0 i)).accum.length := by rw [h1]; exact hj
  rw [List.getD_eq_getElem?_getD] at this ⊢
  rw [List.getElem?_eq_getElem hj'] at this
  rw [List.getElem?_map, List.getElem?_eq_getElem hj']
  simp only [Option.getD_some, Option.map_some] at this ⊢
  rw [this]
  unfold Statistics.average
  rw [List.length_map, List.length_range, hm, Finset.sum_range]
  congr 1
  rw [← List.sum_ofFn]
  congr 1
  apply List.ext_getElem (by simp)
  intro k h3 h4
  simp only [List.getElem_ofFn, List.getElem_map, List.getElem_range]
  rfl

/-! ## A completed run exists, and concrete runs -/

/-- From every state of a run the processes can return without further signals; so the hypotheses
"reachable and done" above are met by every environment. -/
theorem C122_completes (E : Env Ω 𝕜) (r0 : Fin (n + 1) → Rank Ω 𝕜) (flags : Fin (n + 1) → Bool)
    (hk : SameKeys E r0) (s : Sys Ω 𝕜 n) (hs : ReflTransGen (Step E) (start E r0 flags) s) :
    ∃ t, ReflTransGen (Move E) s t ∧ t.done ∧ t.flags = s.flags := by
  obtain ⟨bound, hb⟩ := C122_terminates E r0 flags hk
  have key : ∀ fuel k s, Path (Step E) k (start E r0 flags) s → bound ≤ k + fuel →
      ∃ t, ReflTransGen (Move E) s t ∧ t.done ∧ t.flags = s.flags := by
    intro fuel
    induction fuel with
    | zero =>
      intro k s hp hle
      rcases C122_progress E r0 flags hk s hp.toRTG with hd | ⟨t, ht⟩
      · exact ⟨s, .refl, hd, rfl⟩
      · have := hb _ _ (hp.snoc (Or.inl ht))
        omega
    | succ f ih =>
      intro k s hp hle
      rcases C122_progress E r0 flags hk s hp.toRTG with hd | ⟨t, ht⟩
      · exact ⟨s, .refl, hd, rfl⟩
      · obtain ⟨u, h1, h2, h3⟩ := ih (k + 1) t (hp.snoc (Or.inl ht)) (by omega)
        refine ⟨u, .head ht h1, h2, h3.trans ?_⟩
        cases ht <;> rfl
  have hpath : ∃ k, Path (Step E) k (start E r0 flags) s := by
    clear key
    induction hs with
    | refl => exact ⟨0, .nil _⟩
    | tail _ hst ih =>
      obtain ⟨k, hp⟩ := ih
      exact ⟨k + 1, hp.snoc hst⟩
  obtain ⟨k, hp⟩ := hpath
  exact key bound k s hp (by omega)

theorem moves_steps {E : Env Ω 𝕜} {s t : Sys Ω 𝕜 n} (h : ReflTransGen (Move E) s t) :
    ReflTransGen (Step E) s t := by
  induction h with
  | refl => exact .refl
  | tail _ h ih => exact .tail ih (show Step E _ _ from Or.inl h)

/-- an engine that counts: two samples, the energy of a sample is the counter, all proposals accepted,
amplitudes 1 and 3 -/
noncomputable def demo (stores : Bool) : Env ℕ ℝ where
  samples := 2
  sweep := fun x => (x + 1, [1])
  observe := fun x => (x, [("energy", [(x : ℝ)])], storedSummary stores [1, 3])
  order := id
  dirs := 2
  files := 2
  warnEnabled := true
  warnMasterOnly := true
  warnThreshold := 1 / 1000
  warnMax := 1

/-- a new measurer in a process that has already printed `w` warnings -/
def fresh0 (x w : ℕ) : Rank ℕ ℝ := ⟨x, [], [], none, [], w, [], [], none, .fin⟩

theorem demo_shape (b : Bool) (x : Fin (n + 1) → ℕ) (w : ℕ) :
    SameShape (demo b) (fun i => fresh0 (x i) w) 0 [("energy", 1)] :=
  ⟨by simp, fun _ => rfl, fun _ _ h => absurd h List.not_mem_nil, fun _ => rfl⟩

/-- two processes, uninterrupted: the master's energy is the average of 1, 2, 11, 12 -/
example : ∃ s, ReflTransGen (Step (demo true))
    (start (demo true) (n := 1) (fun i => fresh0 (10 * i.1) 0) (fun _ => false)) s ∧ s.done ∧
    ∃ l, (s.ranks 0).reg.lookup "energy" = some (some l) ∧ l.getD 0 0 = 13 / 2 := by
  have hsh := demo_shape (n := 1) true (fun i => 10 * i.1) 0
  obtain ⟨s, h1, h2, h3⟩ := C122_completes _ _ (fun _ => false) hsh.keys _ .refl
  have h1 := moves_steps h1
  refine ⟨s, h1, h2, ?_⟩
  obtain ⟨m, hm, hsm, _, hlt⟩ := C122_agree _ _ _ hsh.keys s h1 h2
  have hm2 : m = 2 := by
    by_contra hne
    obtain ⟨i, hi⟩ := hlt (lt_of_le_of_ne hm hne)
    rw [h3] at hi
    cases hi
  subst hm2
  obtain ⟨l, e, hl, g⟩ := (C123_statistics _ _ _ 0 _ hsh (fun ks => .refl _) s h1 h2).1 "energy" 1
    (by simp) (by rw [hsm 0]; simp [fresh0, List.range_succ])
  refine ⟨l, e, ?_⟩
  rw [g 0 (by omega)]
  simp only [hsm, fresh0, sampleAt, engAfter, demo, List.range_succ, List.range_zero, List.ofFn_succ,
    List.ofFn_zero]
  norm_num [value, Statistics.average, List.lookup, engAfter]

/-- **C124 (fails)** A solver that drops the amplitudes: amplitudes that disagree by 50 % are reported as
consistent, and no warning is issued. -/
theorem C124_fails : ∃ (E : Env ℕ ℝ) (r0 : Fin 1 → Rank ℕ ℝ) (s : Sys ℕ ℝ 0),
    ReflTransGen (Step E) (start E r0 (fun _ => false)) s ∧ s.done ∧ reports E (0 : Fin 1) ∧
    (∀ x, (E.observe x).2.2 = storedSummary false [1, 3]) ∧ inconsistent E (Psi.summary [1, 3]) ∧
    (s.ranks 0).psi = [⟨0, 0⟩, ⟨0, 0⟩] ∧ (s.ranks 0).printed = [] := by
  have hsh := demo_shape (n := 0) false (fun _ => 0) 0
  obtain ⟨s, h1, h2, h3⟩ := C122_completes _ _ (fun _ => false) hsh.keys _ .refl
  have h1 := moves_steps h1
  obtain ⟨m, hm, hsm, _, hlt⟩ := C122_agree _ _ _ hsh.keys s h1 h2
  have hm2 : m = 2 := by
    by_contra hne
    obtain ⟨i, hi⟩ := hlt (lt_of_le_of_ne hm hne)
    rw [h3] at hi
    cases hi
  obtain ⟨m', hm', hpsi⟩ := C124_dropped _ _ _ hsh.keys (fun _ => [1, 3]) (fun _ => rfl) s h1 h2 0 rfl
  have hmm : m' = 2 := by
    rw [hsm 0, hm2] at hm'
    simp [fresh0] at hm'
    omega
  subst hmm
  have hrep : reports (demo false) (0 : Fin 1) := ⟨rfl, Or.inr rfl⟩
  refine ⟨demo false, _, s, h1, h2, hrep, fun _ => rfl, ?_, hpsi, ?_⟩
  · show (1 : ℝ) / 1000 < _
    rw [Psi.relErr_one_three]; norm_num
  · obtain ⟨rows, hr, hp, _⟩ := C125_warnings_partial _ _ _ hsh.keys s h1 h2 0 rfl
    have hrows : rows = [⟨0, 0⟩, ⟨0, 0⟩] := by
      rw [hpsi] at hr
      exact (List.append_cancel_left hr).symm
    rw [hp hrep, hrows]
    have : ¬ inconsistent (demo false) ⟨(0 : ℝ), 0⟩ := by
      show ¬ ((1 : ℝ) / 1000 < 0)
      norm_num
    simp [this, fresh0]

/-- the number of printed warnings and the counter after the two samples of `demo` -/
theorem demo_printed (w : ℕ) : ∃ s, ReflTransGen (Step (demo true))
    (start (demo true) (n := 0) (fun _ => fresh0 0 w) (fun _ => false)) s ∧ s.done ∧
    (s.ranks 0).psi = [Psi.summary [1, 3], Psi.summary [1, 3]] ∧
    (s.ranks 0).printed = [Psi.summary [1, 3]].take (1 - w) ∧ (s.ranks 0).warned = w + (1 - w) := by
  have hsh := demo_shape (n := 0) true (fun _ => 0) w
  obtain ⟨s, h1, h2, h3⟩ := C122_completes _ _ (fun _ => false) hsh.keys _ .refl
  have h1 := moves_steps h1
  obtain ⟨m, hS⟩ := final_shape hsh.keys h1 h2
  have hm2 : m = 2 := by
    by_contra hne
    obtain ⟨i, hi⟩ := hS.stopped (by simp) (lt_of_le_of_ne hS.le hne)
    rw [h3] at hi
    cases hi
  subst hm2
  obtain ⟨rows, hl, hp, hw, _⟩ := bodies_printed (demo true) true 2 (fresh0 0 w)
  have hpsi := bodies_psi (demo true) true 2 (fresh0 0 w) rfl
  have hrows : rows = [Psi.summary [1, 3], Psi.summary [1, 3]] := by
    rw [hp] at hpsi
    have := List.append_cancel_left hpsi
    rw [this]
    simp [List.range_succ, sampleAt, demo, storedSummary, psiSummary]
  have hinc : (demo true).warnThreshold < (Psi.summary ([1, 3] : List ℝ)).relErr := by
    show (1 : ℝ) / 1000 < _
    rw [Psi.relErr_one_three]; norm_num
  have hs0 : s.ranks 0 = snap (bodies (demo true) true 2 (fresh0 0 w)) _ _ _ := hS.ranks 0
  obtain ⟨hw1, hw2⟩ := hw ⟨rfl, Or.inr rfl⟩
  refine ⟨s, h1, h2, ?_, ?_, ?_⟩
  · rw [hs0, snap_psi, hp, hrows]; rfl
  · rw [hs0]
    show (bodies (demo true) true 2 (fresh0 0 w)).printed = _
    rw [hw1, hrows]
    simp only [List.filter_cons, hinc, decide_true, if_true, List.filter_nil]
    show [] ++ List.take (1 - w) _ = _
    rcases Nat.eq_zero_or_pos w with rfl | hpos
    · rfl
    · rw [Nat.sub_eq_zero_of_le hpos]; rfl
  · rw [hs0]
    show (bodies (demo true) true 2 (fresh0 0 w)).warned = _
    rw [hw2, hrows]
    simp only [List.filter_cons, hinc, decide_true, if_true, List.filter_nil]
    show w + min 2 (1 - w) = _
    omega

/-- **C125 (fails)** The limit is not per executor: in one process two measurers run one after the other,
each with a limit of one warning and two inconsistent samples; the first prints a warning, the second prints
none. -/
theorem C125_fails : ∃ (E : Env ℕ ℝ) (r0 : Fin 1 → Rank ℕ ℝ) (s t : Sys ℕ ℝ 0),
    E.warnMax = 1 ∧ reports E (0 : Fin 1) ∧ (r0 0).warned = 0 ∧
    ReflTransGen (Step E) (start E r0 (fun _ => false)) s ∧ s.done ∧ (s.ranks 0).printed.length = 1 ∧
    ReflTransGen (Step E) (start E (fun i => { r0 i with warned := (s.ranks i).warned }) (fun _ => false)) t ∧
    t.done ∧ (∀ r ∈ (t.ranks 0).psi, inconsistent E r) ∧ (t.ranks 0).psi.length = 2 ∧
    (t.ranks 0).printed = [] := by
  obtain ⟨s, h1, h2, _, h4, h5⟩ := demo_printed 0
  obtain ⟨t, g1, g2, g3, g4, _⟩ := demo_printed 1
  refine ⟨demo true, fun _ => fresh0 0 0, s, t, rfl, ⟨rfl, Or.inr rfl⟩, rfl, h1, h2, by rw [h4]; rfl, ?_,
    g2, ?_, by rw [g3]; rfl, by rw [g4]; rfl⟩
  · have : (fun i : Fin 1 => { fresh0 0 0 with warned := (s.ranks i).warned }) = fun _ => fresh0 0 1 := by
      funext i
      rw [show i = 0 from Fin.eq_zero i, h5]
      rfl
    rw [this]
    exact g1
  · rw [g3]
    intro r hr
    have : r = Psi.summary [1, 3] := by simpa using hr
    subst this
    show (1 : ℝ) / 1000 < _
    rw [Psi.relErr_one_three]; norm_num

/-- one process, a signal after the first sample -/
theorem demo_stopped : ∃ s, ReflTransGen (Step (demo true))
    (start (demo true) (n := 0) (fun _ => fresh0 0 0) (fun _ => false)) s ∧ s.done ∧
    (s.ranks 0).samples = [[("energy", [1])]] ∧ (s.ranks 0).accum = [1] := by
  have hsh := demo_shape (n := 0) true (fun _ => 0) 0
  set s0 := start (demo true) (n := 0) (fun _ => fresh0 0 0) (fun _ => false) with hs0
  let q : Fin 1 → Req ℝ := fun _ => .stop false
  have hp0 : (s0.ranks 0).phase = .loop 0 := rfl
  have m1 : Move (demo true) s0 { s0 with posted := Function.update s0.posted 0 (some (request (s0.flags 0) (s0.ranks 0))) } :=
    .arrive s0 0 rfl (by rw [hp0]; simp)
  set s1 : Sys ℕ ℝ 0 := { s0 with posted := Function.update s0.posted 0 (some (request (s0.flags 0) (s0.ranks 0))) } with hs1
  have m2 : Move (demo true) s1 { s1 with
      ranks := fun i => resume (demo true) (isMaster i) (List.ofFn q) (s1.ranks i)
      posted := fun _ => none } :=
    .complete s1 q (fun i => by rw [show i = 0 from Fin.eq_zero i]; rfl) (fun i => rfl)
  set s2 : Sys ℕ ℝ 0 := { s1 with
      ranks := fun i => resume (demo true) (isMaster i) (List.ofFn q) (s1.ranks i)
      posted := fun _ => none } with hs2
  have m3 : Signal s2 { s2 with flags := Function.update s2.flags 0 true } := .signal s2 0 rfl
  set s3 : Sys ℕ ℝ 0 := { s2 with flags := Function.update s2.flags 0 true } with hs3
  have hr : ReflTransGen (Step (demo true)) s0 s3 :=
    .head (show Step _ _ _ from Or.inl m1) (.head (show Step _ _ _ from Or.inl m2)
      (.single (show Step _ _ _ from Or.inr m3)))
  have hlen : (s3.ranks 0).samples.length = 1 := by
    show (enter (demo true) 1 (body (demo true) true 0 (s0.ranks 0))).samples.length = 1
    unfold enter
    rw [if_pos (by show 1 < 2; omega)]
    show (body (demo true) true 0 (s0.ranks 0)).samples.length = 1
    rw [body_samples]
    rfl
  obtain ⟨t, h1, h2, h3⟩ := C122_completes _ _ _ hsh.keys s3 hr
  have ht := hr.trans (moves_steps h1)
  have hfin : (t.ranks 0).samples.length = 1 := by
    exact ((C122_prompt _ _ _ hsh.keys s3 t hr (moves_steps h1) 0 (by simp [hs3]) 0).2 rfl).trans hlen
  obtain ⟨m, hS⟩ := final_shape hsh.keys ht h2
  have hm : m = 1 := by
    have := samples_length hS 0
    rw [hfin] at this
    simp [fresh0] at this
    omega
  subst hm
  refine ⟨t, ht, h2, ?_, ?_⟩
  · rw [hS.ranks 0, snap_samples, show (after (demo true) (fun _ => fresh0 0 0) 1 0).samples = _ from
      bodies_samples (demo true) (isMaster (0 : Fin 1)) 1 _]
    simp [fresh, fresh0, sampleAt, engAfter, demo]
  · rw [hS.ranks 0]
    show (bodies (demo true) (isMaster (0 : Fin 1)) 1 _).accum = _
    rw [bodies_accum]
    simp [ratesAt, demo]

/-- **C126 (fails)** After an emergency stop the rates are wrong: one of two sweeps was made, all of its
proposals were accepted, and the printed rate is one half. -/
theorem C126_fails : ∃ (E : Env ℕ ℝ) (r0 : Fin 1 → Rank ℕ ℝ) (s : Sys ℕ ℝ 0),
    ReflTransGen (Step E) (start E r0 (fun _ => false)) s ∧ s.done ∧ (s.ranks 0).samples.length = 1 ∧
    (∀ x, (E.sweep x).2 = [1]) ∧ printedRates E (s.ranks 0) = [1 / 2] := by
  obtain ⟨s, h1, h2, h3, h4⟩ := demo_stopped
  refine ⟨demo true, _, s, h1, h2, by rw [h3]; rfl, fun _ => rfl, ?_⟩
  unfold printedRates
  rw [h4]
  norm_num [demo]

end QLPeps.Measurer
