import Verif.Lemmas.CG
import Mathlib.Logic.Relation

/-! Helper lemmas for the distributed conjugate-gradient protocol. -/

namespace QLPeps.CG

variable {V K R : Type*} {n : ℕ}

/-- programs of the master at a moment when every slave waits for an instruction, with at most `N` products
left -/
inductive Idle : ℕ → Prog V R → Prop
  | finish (N res) : Idle N (.instr .finish (.ret res))
  | mult (N v k) (h : ∀ w, Idle N (k w)) : Idle (N + 1) (.instr .multiplication (.mul v k))

theorem Idle.mono {N M : ℕ} {p : Prog V R} (h : Idle N p) (hNM : N ≤ M) : Idle M p := by
  induction h generalizing M with
  | finish N res => exact .finish _ _
  | mult N v k h ih =>
    obtain ⟨M', rfl⟩ : ∃ M', M = M' + 1 := ⟨M - 1, by omega⟩
    exact .mult _ _ _ fun w => ih w (by omega)

theorem masterLoop_idle (o : Ops V K R) (pr : Params R) (tol : R) (b : V) :
    ∀ (m k : ℕ) (s : St V R), Idle (2 * m) (masterLoop o pr tol b m k s) := by
  intro m
  induction m with
  | zero => intro k s; exact .finish _ _
  | succ m ih =>
    intro k s
    have key : ∀ (st : St V R), Idle (2 * m) (match finishIter o pr tol k st with
            | .inl res => (.instr .finish (.ret res) : Prog V R)
            | .inr s' => masterLoop o pr tol b m (k + 1) s') := by
      intro st
      cases finishIter o pr tol k st with
      | inl res => exact .finish _ _
      | inr s' => exact ih _ _
    unfold masterLoop
    refine .mult (2 * m + 1) _ _ fun ap => ?_
    dsimp only
    by_cases h1 : (!o.papValid (o.inner s.p ap)) = true
    · rw [if_pos h1]; exact .finish _ _
    rw [if_neg h1]
    split_ifs
    · exact .finish _ _
    · exact .mult _ _ _ fun ax => key _
    · exact (key _).mono (by omega)

/-- position of a slave before the instruction announcing a product: at the first instruction or later -/
def pre (first : Bool) : SPC V := if first then .wait0 else .waitInstr
/-- the instruction announcing it -/
def ann (first : Bool) : Instr := if first then .start else .multiplication

@[simp] theorem pre_recv (Ar : V → V) (f : Bool) : (pre f : SPC V).recv Ar (.instr (ann f)) = .waitVec := by
  cases f <;> rfl

/-- a slave that may lag behind an announced product -/
def LagA (f : Bool) (c : ℕ) (s : Slave V) : Prop :=
  s = ⟨pre f, [.instr (ann f)], [], c⟩ ∨ s = ⟨.waitVec, [], [], c⟩

/-- a slave during a product -/
def LagB (f : Bool) (c : ℕ) (v w : V) (s : Slave V) : Prop :=
  s = ⟨pre f, [.instr (ann f), .vec v], [], c⟩ ∨ s = ⟨.waitVec, [.vec v], [], c⟩ ∨
  s = ⟨.sending w, [], [], c⟩ ∨ s = ⟨.waitInstr, [], [w], c + 1⟩

/-- a slave at the end -/
def LagF (c : ℕ) (s : Slave V) : Prop := s = ⟨.waitInstr, [.instr .finish], [], c⟩ ∨ s = ⟨.done, [], [], c⟩

/-- slaves while the master has collected `got` -/
def Gath (A : Fin n → V → V) (f : Bool) (c : ℕ) (v : V) (got : List (Fin n × V)) (s : Fin n → Slave V) : Prop :=
  (got.map Prod.fst).Nodup ∧ (∀ e ∈ got, e.2 = A e.1 v) ∧
  ∀ i, (i ∈ got.map Prod.fst ∧ s i = ⟨.waitInstr, [], [], c + 1⟩) ∨
    (i ∉ got.map Prod.fst ∧ LagB f c v (A i v) (s i))

/-- Reachable states, with the weight of what the master still has to do. -/
inductive Good (A : Fin n → V → V) : Sys n V R → ℕ → Prop
  | start (N v k c) (h : ∀ w, Idle N (k w)) :
      Good A ⟨.run (.instr .start (.mul v k)), fun _ => ⟨.wait0, [], [], c⟩, c⟩ ((N + 1) * (4 * n + 5) + (n + 2))
  | idle (N p s c) (h : Idle N p) (hs : ∀ i, s i = ⟨.waitInstr, [], [], c⟩) :
      Good A ⟨.run p, s, c⟩ (N * (4 * n + 5) + (n + 2))
  | ann1 (f N v k s c) (h : ∀ w, Idle N (k w)) (hs : ∀ i, LagA f c (s i)) :
      Good A ⟨.inInstr (.mul v k), s, c⟩ (N * (4 * n + 5) + (n + 2) + (3 * n + 4))
  | ann2 (f N v k s c) (h : ∀ w, Idle N (k w)) (hs : ∀ i, LagA f c (s i)) :
      Good A ⟨.run (.mul v k), s, c⟩ (N * (4 * n + 5) + (n + 2) + (3 * n + 3))
  | vec (f N v k s c) (h : ∀ w, Idle N (k w)) (hs : Gath A f c v [] s) :
      Good A ⟨.inVec v k, s, c⟩ (N * (4 * n + 5) + (n + 2) + (n + 2))
  | gather (f N v k got s c) (h : ∀ w, Idle N (k w)) (hs : Gath A f c v got s) :
      Good A ⟨.gather v k got, s, c⟩ (N * (4 * n + 5) + (n + 2) + (1 + (n - got.length)))
  | fin1 (res s c) (hs : ∀ i, LagF c (s i)) : Good A ⟨.inInstr (.ret res), s, c⟩ 1
  | fin2 (res s c) (hs : ∀ i, LagF c (s i)) : Good A ⟨.run (.ret res), s, c⟩ 0

/-- work of a message -/
def Msg.weight : Msg V → ℕ
  | .instr _ => 1
  | .vec _ => 2

/-- work left on a slave -/
def Slave.weight (s : Slave V) : ℕ :=
  (s.queue.map Msg.weight).sum + (match s.pc with | .sending _ => 1 | _ => 0)

theorem weight_push (s : Fin n → Slave V) (m : Msg V) :
    ∑ i, (pushAll s m i).weight = (∑ i, (s i).weight) + n * m.weight := by
  have : ∀ i, (pushAll s m i).weight = (s i).weight + m.weight := by
    intro i
    simp only [pushAll, Slave.weight, List.map_append, List.sum_append, List.map_cons, List.map_nil,
      List.sum_cons, List.sum_nil]
    omega
  simp only [this, Finset.sum_add_distrib, Finset.sum_const, Finset.card_univ, Fintype.card_fin, smul_eq_mul]

theorem weight_update (s : Fin n → Slave V) (i : Fin n) (t : Slave V) (h : t.weight < (s i).weight) :
    ∑ j, (Function.update s i t j).weight < ∑ j, (s j).weight := by
  apply Finset.sum_lt_sum
  · intro j _
    by_cases hj : j = i
    · subst hj; simp; omega
    · simp [hj]
  · exact ⟨i, Finset.mem_univ _, by simpa using h⟩

theorem weight_update_eq (s : Fin n → Slave V) (i : Fin n) (t : Slave V) (h : t.weight = (s i).weight) :
    ∑ j, (Function.update s i t j).weight = ∑ j, (s j).weight := by
  apply Finset.sum_congr rfl
  intro j _
  by_cases hj : j = i
  · subst hj; simpa using h
  · simp [hj]

/-! #### how a slave moves -/

/-- updating one slave keeps a pointwise predicate -/
theorem upd_forall {P : Slave V → Prop} {s : Fin n → Slave V} (h : ∀ i, P (s i)) {i : Fin n} {t : Slave V} (ht : P t) :
    ∀ j, P (Function.update s i t j) := by
  intro j
  by_cases hj : j = i
  · subst hj; simpa using ht
  · simpa [hj] using h j

theorem LagA.consume {f : Bool} {c : ℕ} {s : Slave V} (h : LagA f c s) (Ar : V → V) {msg rest}
    (hq : s.queue = msg :: rest) :
    LagA f c (s.consume Ar msg rest) ∧ (s.consume Ar msg rest).weight < s.weight := by
  rcases h with rfl | rfl
  · simp only [List.cons.injEq] at hq
    obtain ⟨rfl, rfl⟩ := hq
    refine ⟨Or.inr (by simp [Slave.consume]), ?_⟩
    cases f <;> simp [Slave.consume, Slave.weight, Msg.weight, pre, ann, SPC.recv]
  · simp at hq

theorem LagA.not_sending {f : Bool} {c : ℕ} {s : Slave V} (h : LagA f c s) {w} (hp : s.pc = .sending w) : False := by
  rcases h with rfl | rfl
  · cases f <;> simp [pre] at hp
  · simp at hp

theorem LagF.consume {c : ℕ} {s : Slave V} (h : LagF c s) (Ar : V → V) {msg rest} (hq : s.queue = msg :: rest) :
    LagF c (s.consume Ar msg rest) ∧ (s.consume Ar msg rest).weight < s.weight := by
  rcases h with rfl | rfl
  · simp only [List.cons.injEq] at hq
    obtain ⟨rfl, rfl⟩ := hq
    exact ⟨Or.inr (by simp [Slave.consume, SPC.recv]), by simp [Slave.consume, Slave.weight, Msg.weight, SPC.recv]⟩
  · simp at hq

theorem LagF.not_sending {c : ℕ} {s : Slave V} (h : LagF c s) {w} (hp : s.pc = .sending w) : False := by
  rcases h with rfl | rfl <;> simp at hp

theorem LagB.consume {f : Bool} {c : ℕ} {v w : V} {s : Slave V} {Ar : V → V} (hw : w = Ar v) (h : LagB f c v w s)
    {msg rest} (hq : s.queue = msg :: rest) :
    LagB f c v w (s.consume Ar msg rest) ∧ (s.consume Ar msg rest).weight < s.weight := by
  rcases h with rfl | rfl | rfl | rfl
  · simp only [List.cons.injEq] at hq
    obtain ⟨rfl, rfl⟩ := hq
    refine ⟨Or.inr (Or.inl (by simp [Slave.consume])), ?_⟩
    cases f <;> simp [Slave.consume, Slave.weight, Msg.weight, pre, ann, SPC.recv]
  · simp only [List.cons.injEq] at hq
    obtain ⟨rfl, rfl⟩ := hq
    exact ⟨Or.inr (Or.inr (Or.inl (by simp [Slave.consume, SPC.recv, hw]))),
      by simp [Slave.consume, Slave.weight, Msg.weight, SPC.recv]⟩
  · simp at hq
  · simp at hq

theorem LagB.send {f : Bool} {c : ℕ} {v w u : V} {s : Slave V} (h : LagB f c v w s) (hp : s.pc = .sending u) :
    u = w ∧ s = ⟨.sending w, [], [], c⟩ := by
  rcases h with rfl | rfl | rfl | rfl
  · cases f <;> simp [pre] at hp
  · simp at hp
  · simp at hp; exact ⟨hp.symm, rfl⟩
  · simp at hp

theorem LagB.mail {f : Bool} {c : ℕ} {v w u : V} {rest : List V} {s : Slave V} (h : LagB f c v w s)
    (hp : s.mail = u :: rest) : u = w ∧ rest = [] ∧ s = ⟨.waitInstr, [], [w], c + 1⟩ := by
  rcases h with rfl | rfl | rfl | rfl
  · simp at hp
  · simp at hp
  · simp at hp
  · simp at hp; exact ⟨hp.1.symm, hp.2, rfl⟩

theorem Gath.upd {A : Fin n → V → V} {f : Bool} {c : ℕ} {v : V} {got : List (Fin n × V)} {s : Fin n → Slave V}
    (h : Gath A f c v got s) {i : Fin n} {t : Slave V} (hi : i ∉ got.map Prod.fst) (ht : LagB f c v (A i v) t) :
    Gath A f c v got (Function.update s i t) := by
  refine ⟨h.1, h.2.1, fun j => ?_⟩
  by_cases hj : j = i
  · subst hj; right; exact ⟨hi, by simpa using ht⟩
  · simpa [hj] using h.2.2 j

theorem Gath.consume {A : Fin n → V → V} {f : Bool} {c : ℕ} {v : V} {got : List (Fin n × V)} {s : Fin n → Slave V}
    (h : Gath A f c v got s) {i : Fin n} {msg rest} (hq : (s i).queue = msg :: rest) :
    Gath A f c v got (Function.update s i ((s i).consume (A i) msg rest)) ∧
      ((s i).consume (A i) msg rest).weight < (s i).weight := by
  rcases h.2.2 i with ⟨_, h2⟩ | ⟨h1, h2⟩
  · rw [h2] at hq; simp at hq
  · obtain ⟨h3, h4⟩ := h2.consume (Ar := A i) rfl hq
    exact ⟨h.upd h1 h3, h4⟩

theorem Gath.send {A : Fin n → V → V} {f : Bool} {c : ℕ} {v : V} {got : List (Fin n × V)} {s : Fin n → Slave V}
    (h : Gath A f c v got s) {i : Fin n} {w} (hp : (s i).pc = .sending w) :
    Gath A f c v got (Function.update s i
          { s i with pc := .waitInstr, mail := (s i).mail ++ [w], products := (s i).products + 1 }) ∧
      Slave.weight { s i with pc := .waitInstr, mail := (s i).mail ++ [w], products := (s i).products + 1 }
        < (s i).weight := by
  rcases h.2.2 i with ⟨_, h2⟩ | ⟨h1, h2⟩
  · rw [h2] at hp; simp at hp
  · obtain ⟨rfl, h4⟩ := h2.send hp
    refine ⟨h.upd h1 ?_, ?_⟩
    · rw [h4]; exact Or.inr (Or.inr (Or.inr rfl))
    · rw [h4]; simp [Slave.weight]

theorem Gath.got {A : Fin n → V → V} {f : Bool} {c : ℕ} {v : V} {got : List (Fin n × V)} {s : Fin n → Slave V}
    (h : Gath A f c v got s) {i : Fin n} (hi : i ∉ got.map Prod.fst) :
    Gath A f c v (got ++ [(i, A i v)]) (Function.update s i ⟨.waitInstr, [], [], c + 1⟩) := by
  refine ⟨?_, ?_, fun j => ?_⟩
  · rw [List.map_append, List.nodup_append]
    refine ⟨h.1, by simp, ?_⟩
    intro a ha b hb
    simp at hb
    subst hb
    exact fun hab => hi (hab ▸ ha)
  · intro e he
    rcases List.mem_append.1 he with he | he
    · exact h.2.1 e he
    · simp at he; subst he; rfl
  · by_cases hj : j = i
    · subst hj; left; simp
    · rcases h.2.2 j with ⟨h1, h2⟩ | ⟨h1, h2⟩
      · left; refine ⟨?_, by simpa [hj] using h2⟩
        rw [List.map_append]; exact List.mem_append_left _ h1
      · right; refine ⟨?_, by simpa [hj] using h2⟩
        rw [List.map_append, List.mem_append]
        rintro (h3 | h3)
        · exact h1 h3
        · simp at h3; exact hj h3

/-- all replies are in: everybody is in `got` -/
theorem Gath.full {A : Fin n → V → V} {f : Bool} {c : ℕ} {v : V} {got : List (Fin n × V)} {s : Fin n → Slave V}
    (h : Gath A f c v got s) (hlen : got.length = n) : ∀ i, i ∈ got.map Prod.fst := by
  have hc : (got.map Prod.fst).toFinset.card = n := by
    rw [List.toFinset_card_of_nodup h.1]; simpa using hlen
  intro i
  have : (got.map Prod.fst).toFinset = Finset.univ := by
    apply Finset.eq_univ_of_card; simpa using hc
  have hi : i ∈ (got.map Prod.fst).toFinset := by rw [this]; exact Finset.mem_univ _
  simpa using hi

theorem Gath.length_le {A : Fin n → V → V} {f : Bool} {c : ℕ} {v : V} {got : List (Fin n × V)} {s : Fin n → Slave V}
    (h : Gath A f c v got s) : got.length ≤ n := by
  have := h.1.length_le_card
  simpa using this

/-- potential of a state -/
def total (s : Fin n → Slave V) : ℕ := ∑ i, (s i).weight

theorem must_good {o : Ops V K R} {A0 : V → V} {A : Fin n → V → V} {a b : Sys n V R} {w : ℕ}
    (hg : Good A a w) (hstep : Must o A0 A a b) :
    ∃ w', Good A b w' ∧ w' + total b.s < w + total a.s := by
  cases hstep with
  | instr i p s c =>
    cases hg with
    | start N v k c h =>
      refine ⟨_, Good.ann1 true N v k _ c h (fun i => Or.inl ?_), ?_⟩
      · simp [pushAll, pre, ann]
      · dsimp only [total]; rw [weight_push]; simp only [Msg.weight]; ring_nf; omega
    | idle N p s c h hs =>
      cases h with
      | finish _ res =>
        refine ⟨_, Good.fin1 res _ c (fun i => Or.inl ?_), ?_⟩
        · simp [pushAll, hs]
        · dsimp only [total]; rw [weight_push]; simp only [Msg.weight]
          have : 0 ≤ N * (4 * n + 5) := Nat.zero_le _
          omega
      | mult N v k h =>
        refine ⟨_, Good.ann1 false N v k _ c h (fun i => Or.inl ?_), ?_⟩
        · simp [pushAll, hs, pre, ann]
        · dsimp only [total]; rw [weight_push]; simp only [Msg.weight]; ring_nf; omega
  | instrEnd p s c h =>
    cases hg with
    | ann1 f N v k s c h' hs => exact ⟨_, Good.ann2 f N v k s c h' hs, by dsimp only [total]; omega⟩
    | fin1 res s c hs => exact ⟨_, Good.fin2 res s c hs, by dsimp only [total]; omega⟩
  | vec v k s c =>
    cases hg with
    | idle N p s c h hs => cases h
    | ann2 f N v k s c h' hs =>
      refine ⟨_, Good.vec f N v k _ c h' ⟨by simp, by simp, fun i => Or.inr ⟨by simp, ?_⟩⟩, ?_⟩
      · rcases hs i with h1 | h1
        · left; simp [pushAll, h1]
        · right; left; simp [pushAll, h1]
      · dsimp only [total]; rw [weight_push]; simp only [Msg.weight]; omega
  | vecEnd v k s c h =>
    cases hg with
    | vec f N v k s c h' hs => exact ⟨_, Good.gather f N v k [] s c h' hs, by dsimp only [total]; simp only [List.length_nil]; omega⟩
  | consume m s c i msg rest h hready =>
    cases hg with
    | start N v k c h' => simp at h
    | idle N p s c h' hs => rw [hs] at h; simp at h
    | ann1 f N v k s c h' hs =>
      obtain ⟨h1, h2⟩ := (hs i).consume (A i) h
      exact ⟨_, Good.ann1 f N v k _ c h' (upd_forall hs h1), by have := weight_update s i _ h2; dsimp only [total] at this ⊢; omega⟩
    | ann2 f N v k s c h' hs =>
      obtain ⟨h1, h2⟩ := (hs i).consume (A i) h
      exact ⟨_, Good.ann2 f N v k _ c h' (upd_forall hs h1), by have := weight_update s i _ h2; dsimp only [total] at this ⊢; omega⟩
    | vec f N v k s c h' hs =>
      obtain ⟨h1, h2⟩ := hs.consume h
      exact ⟨_, Good.vec f N v k _ c h' h1, by have := weight_update s i _ h2; dsimp only [total] at this ⊢; omega⟩
    | gather f N v k got s c h' hs =>
      obtain ⟨h1, h2⟩ := hs.consume h
      exact ⟨_, Good.gather f N v k got _ c h' h1, by have := weight_update s i _ h2; dsimp only [total] at this ⊢; omega⟩
    | fin1 res s c hs =>
      obtain ⟨h1, h2⟩ := (hs i).consume (A i) h
      exact ⟨_, Good.fin1 res _ c (upd_forall hs h1), by have := weight_update s i _ h2; dsimp only [total] at this ⊢; omega⟩
    | fin2 res s c hs =>
      obtain ⟨h1, h2⟩ := (hs i).consume (A i) h
      exact ⟨_, Good.fin2 res _ c (upd_forall hs h1), by have := weight_update s i _ h2; dsimp only [total] at this ⊢; omega⟩
  | recvMail v k got s c i w rest hlen h =>
    cases hg with
    | gather f N v k got s c h' hs =>
      rcases hs.2.2 i with ⟨_, h2⟩ | ⟨h1, h2⟩
      · rw [h2] at h; simp at h
      · obtain ⟨rfl, rfl, h4⟩ := h2.mail h
        have h5 : ({ s i with mail := [] } : Slave V) = ⟨.waitInstr, [], [], c + 1⟩ := by rw [h4]
        refine ⟨_, Good.gather f N v k _ _ c h' (h5 ▸ hs.got h1), ?_⟩
        dsimp only [total]
        rw [weight_update_eq]
        · simp only [List.length_append, List.length_cons, List.length_nil]; omega
        · rw [h4]; simp [Slave.weight]
  | recvDirect v k got s c i w hlen h hm =>
    cases hg with
    | gather f N v k got s c h' hs =>
      rcases hs.2.2 i with ⟨_, h2⟩ | ⟨h1, h2⟩
      · rw [h2] at h; simp at h
      · obtain ⟨rfl, h4⟩ := h2.send h
        have h5 : ({ s i with pc := .waitInstr, products := (s i).products + 1 } : Slave V)
            = ⟨.waitInstr, [], [], c + 1⟩ := by rw [h4]
        refine ⟨_, Good.gather f N v k _ _ c h' (h5 ▸ hs.got h1), ?_⟩
        have h6 := weight_update s i ({ s i with pc := .waitInstr, products := (s i).products + 1 } : Slave V)
          (by rw [h4]; simp [Slave.weight])
        dsimp only [total] at h6 ⊢
        simp only [List.length_append, List.length_cons, List.length_nil]
        omega
  | gatherEnd v k got s c hlen =>
    cases hg with
    | gather f N v k got s c h' hs =>
      refine ⟨_, Good.idle N _ s (c + 1) (h' _) ?_, by dsimp only [total]; omega⟩
      intro i
      rcases hs.2.2 i with ⟨_, h2⟩ | ⟨h1, _⟩
      · exact h2
      · exact absurd (hs.full hlen i) h1

theorem step_good {o : Ops V K R} {A0 : V → V} {A : Fin n → V → V} {a b : Sys n V R} {w : ℕ}
    (hg : Good A a w) (hstep : Step o A0 A a b) :
    ∃ w', Good A b w' ∧ w' + total b.s < w + total a.s := by
  cases hstep with
  | must h => exact must_good hg h
  | instrEarly p s c =>
    cases hg with
    | ann1 f N v k s c h' hs => exact ⟨_, Good.ann2 f N v k s c h' hs, by dsimp only [total]; omega⟩
    | fin1 res s c hs => exact ⟨_, Good.fin2 res s c hs, by dsimp only [total]; omega⟩
  | vecEarly v k s c =>
    cases hg with
    | vec f N v k s c h' hs => exact ⟨_, Good.gather f N v k [] s c h' hs, by dsimp only [total]; simp only [List.length_nil]; omega⟩
  | sendEarly m s c i w h =>
    cases hg with
    | start N v k c h' => simp at h
    | idle N p s c h' hs => rw [hs] at h; simp at h
    | ann1 f N v k s c h' hs => exact ((hs i).not_sending h).elim
    | ann2 f N v k s c h' hs => exact ((hs i).not_sending h).elim
    | vec f N v k s c h' hs =>
      obtain ⟨h1, h2⟩ := hs.send h
      exact ⟨_, Good.vec f N v k _ c h' h1, by have := weight_update s i _ h2; dsimp only [total] at this ⊢; omega⟩
    | gather f N v k got s c h' hs =>
      obtain ⟨h1, h2⟩ := hs.send h
      exact ⟨_, Good.gather f N v k got _ c h' h1, by have := weight_update s i _ h2; dsimp only [total] at this ⊢; omega⟩
    | fin1 res s c hs => exact ((hs i).not_sending h).elim
    | fin2 res s c hs => exact ((hs i).not_sending h).elim

theorem consume_must {o : Ops V K R} {A0 : V → V} {A : Fin n → V → V} {m : MPC n V R} {s : Fin n → Slave V} {c : ℕ} (i : Fin n)
    {msg rest} (h : (s i).queue = msg :: rest)
    (hready : (s i).pc = .wait0 ∨ (s i).pc = .waitVec ∨ (s i).pc = .waitInstr) :
    ∃ b, Must o A0 A ⟨m, s, c⟩ b := ⟨_, Must.consume m s c i msg rest h hready⟩

theorem pre_ready (f : Bool) : (pre f : SPC V) = .wait0 ∨ (pre f : SPC V) = .waitVec ∨ (pre f : SPC V) = .waitInstr := by
  cases f <;> simp [pre]

/-- no reachable state is stuck, whatever the MPI implementation -/
theorem good_progress {o : Ops V K R} {A0 : V → V} {A : Fin n → V → V} {a : Sys n V R} {w : ℕ}
    (hg : Good A a w) : Finished a ∨ ∃ b, Must o A0 A a b := by
  cases hg with
  | start N v k c h => exact Or.inr ⟨_, Must.instr _ _ _ _⟩
  | idle N p s c h hs =>
    cases h with
    | finish _ res => exact Or.inr ⟨_, Must.instr _ _ _ _⟩
    | mult N v k h => exact Or.inr ⟨_, Must.instr _ _ _ _⟩
  | ann1 f N v k s c h hs =>
    right
    by_cases hq : ∀ i, (s i).queue = []
    · exact ⟨_, Must.instrEnd _ _ _ hq⟩
    · push Not at hq
      obtain ⟨i, hi⟩ := hq
      rcases hs i with h1 | h1
      · exact consume_must i (by rw [h1]) (by rw [h1]; exact pre_ready f)
      · rw [h1] at hi; simp at hi
  | ann2 f N v k s c h hs => exact Or.inr ⟨_, Must.vec _ _ _ _⟩
  | vec f N v k s c h hs =>
    right
    by_cases hq : ∀ i, (s i).queue = []
    · exact ⟨_, Must.vecEnd _ _ _ _ hq⟩
    · push Not at hq
      obtain ⟨i, hi⟩ := hq
      rcases hs.2.2 i with ⟨_, h1⟩ | ⟨_, h1 | h1 | h1 | h1⟩
      · rw [h1] at hi; simp at hi
      · exact consume_must i (by rw [h1]) (by rw [h1]; exact pre_ready f)
      · exact consume_must i (by rw [h1]) (by rw [h1]; simp)
      · rw [h1] at hi; simp at hi
      · rw [h1] at hi; simp at hi
  | gather f N v k got s c h hs =>
    right
    by_cases hlen : got.length = n
    · exact ⟨_, Must.gatherEnd _ _ _ _ _ hlen⟩
    · have hlt : got.length < n := lt_of_le_of_ne hs.length_le hlen
      have : ∃ i, i ∉ got.map Prod.fst := by
        by_contra hall
        push Not at hall
        have h1 : (Finset.univ : Finset (Fin n)) ⊆ (got.map Prod.fst).toFinset := by
          intro i _; simpa using hall i
        have h2 := Finset.card_le_card h1
        have h3 := List.toFinset_card_le (got.map Prod.fst)
        simp at h2 h3
        omega
      obtain ⟨i, hi⟩ := this
      rcases hs.2.2 i with ⟨h0, _⟩ | ⟨_, h1 | h1 | h1 | h1⟩
      · exact absurd h0 hi
      · exact consume_must i (by rw [h1]) (by rw [h1]; exact pre_ready f)
      · exact consume_must i (by rw [h1]) (by rw [h1]; simp)
      · exact ⟨_, Must.recvDirect _ _ _ _ _ i _ hlt (by rw [h1]) (by rw [h1])⟩
      · exact ⟨_, Must.recvMail _ _ _ _ _ i _ [] hlt (by rw [h1])⟩
  | fin1 res s c hs =>
    right
    by_cases hq : ∀ i, (s i).queue = []
    · exact ⟨_, Must.instrEnd _ _ _ hq⟩
    · push Not at hq
      obtain ⟨i, hi⟩ := hq
      rcases hs i with h1 | h1
      · exact consume_must i (by rw [h1]) (by rw [h1]; simp)
      · rw [h1] at hi; simp at hi
  | fin2 res s c hs =>
    by_cases hq : ∀ i, (s i).queue = []
    · left
      refine ⟨⟨res, rfl⟩, fun i => ?_⟩
      rcases hs i with h1 | h1
      · have := hq i; rw [h1] at this; simp at this
      · show (s i).pc = .done ∧ (s i).queue = [] ∧ (s i).mail = [] ∧ (s i).products = c
        rw [h1]; simp
    · right
      push Not at hq
      obtain ⟨i, hi⟩ := hq
      rcases hs i with h1 | h1
      · exact consume_must i (by rw [h1]) (by rw [h1]; simp)
      · rw [h1] at hi; simp at hi

theorem good_no_error {A : Fin n → V → V} {a : Sys n V R} {w : ℕ} (hg : Good A a w) (i : Fin n) :
    (a.s i).pc ≠ .error := by
  have hp : ∀ f, (pre f : SPC V) ≠ .error := by intro f; cases f <;> simp [pre]
  cases hg with
  | start N v k c h => simp
  | idle N p s c h hs => simp [hs]
  | ann1 f N v k s c h hs => rcases hs i with h1 | h1 <;> simp [h1, hp]
  | ann2 f N v k s c h hs => rcases hs i with h1 | h1 <;> simp [h1, hp]
  | vec f N v k s c h hs => rcases hs.2.2 i with ⟨_, h1⟩ | ⟨_, h1 | h1 | h1 | h1⟩ <;> simp [h1, hp]
  | gather f N v k got s c h hs => rcases hs.2.2 i with ⟨_, h1⟩ | ⟨_, h1 | h1 | h1 | h1⟩ <;> simp [h1, hp]
  | fin1 res s c hs => rcases hs i with h1 | h1 <;> simp [h1]
  | fin2 res s c hs => rcases hs i with h1 | h1 <;> simp [h1]

theorem init_good (o : Ops V K R) (A : Fin n → V → V) (b x0 : V) (pr : Params R) :
    Good A (initSys n o b x0 pr) ((2 * pr.maxIter + 1) * (4 * n + 5) + (n + 2)) := by
  refine Good.start (2 * pr.maxIter) _ _ 0 fun w => ?_
  dsimp only
  split_ifs
  · exact .finish _ _
  · exact masterLoop_idle o pr _ b _ _ _

theorem path_good {o : Ops V K R} {A0 : V → V} {A : Fin n → V → V} {a b : Sys n V R} {w m : ℕ}
    (hg : Good A a w) (h : Path o A0 A a m b) : ∃ w', Good A b w' ∧ w' + total b.s + m ≤ w + total a.s := by
  induction h with
  | nil => exact ⟨w, hg, by omega⟩
  | snoc h hs ih =>
    obtain ⟨w', hg', hle⟩ := ih
    obtain ⟨w'', hg'', hlt⟩ := step_good hg' hs
    exact ⟨w'', hg'', by omega⟩

/-! #### the value computed -/

/-- result of a master program when every product is computed by `prod` -/
def Prog.eval (prod : V → V) : Prog V R → Result V R
  | .instr _ p => p.eval prod
  | .mul v k => (k (prod v)).eval prod
  | .ret res => res

/-- value of the master's continuation -/
def MPC.eval (prod : V → V) : MPC n V R → Result V R
  | .run p => p.eval prod
  | .inInstr p => p.eval prod
  | .inVec v k => (k (prod v)).eval prod
  | .gather v k _ => (k (prod v)).eval prod

theorem foldl_add_eq {W : Type*} [AddCommMonoid W] {n : ℕ} (got : List (Fin n × W)) (a : W) :
    got.foldl (fun acc e => acc + e.2) a = a + (got.map Prod.snd).sum := by
  induction got generalizing a with
  | nil => simp
  | cons e l ih => simp [ih, add_assoc]

theorem gathered_eq {W : Type*} [AddCommMonoid W] {n : ℕ} {A : Fin n → W → W} {v : W} {got : List (Fin n × W)}
    (hnd : (got.map Prod.fst).Nodup) (hall : ∀ i, i ∈ got.map Prod.fst) (hval : ∀ e ∈ got, e.2 = A e.1 v) :
    (got.map Prod.snd).sum = ∑ i, A i v := by
  have h1 : got.map Prod.snd = (got.map Prod.fst).map (fun i => A i v) := by
    rw [List.map_map]; apply List.map_congr_left; intro e he; exact hval e he
  rw [h1, ← List.sum_toFinset _ hnd]
  have : (got.map Prod.fst).toFinset = Finset.univ := by
    ext i; simpa using hall i
  rw [this]

theorem step_eval {o : Ops V K R} {A0 : V → V} {A : Fin n → V → V} {prod : V → V} {a b : Sys n V R} {w : ℕ}
    (hprod : ∀ v got (f : Bool) c (s : Fin n → Slave V), Gath A f c v got s → got.length = n →
      gathered o A0 v got = prod v)
    (hg : Good A a w) (hs : Step o A0 A a b) : b.m.eval prod = a.m.eval prod := by
  cases hs with
  | must h =>
    cases h with
    | instr => rfl
    | instrEnd => rfl
    | vec => rfl
    | vecEnd => rfl
    | consume => rfl
    | recvMail => rfl
    | recvDirect => rfl
    | gatherEnd v k got s c hlen =>
      cases hg with
      | gather f N v k got s c h' hs' =>
        show (k (gathered o A0 v got)).eval prod = (k (prod v)).eval prod
        rw [hprod v got f c s hs' hlen]
  | instrEarly => rfl
  | vecEarly => rfl
  | sendEarly => rfl

theorem path_eval {o : Ops V K R} {A0 : V → V} {A : Fin n → V → V} {prod : V → V} {a b : Sys n V R} {w m : ℕ}
    (hprod : ∀ v got (f : Bool) c (s : Fin n → Slave V), Gath A f c v got s → got.length = n →
      gathered o A0 v got = prod v)
    (hg : Good A a w) (h : Path o A0 A a m b) : b.m.eval prod = a.m.eval prod := by
  induction h with
  | nil => rfl
  | snoc h hs ih =>
    obtain ⟨w', hg', _⟩ := path_good hg h
    rw [step_eval hprod hg' hs, ih]

section exact
variable {𝕜 : Type*} [RCLike 𝕜] {V : Type*} [NormedAddCommGroup V] [InnerProductSpace 𝕜 V]

theorem eval_masterLoop (eps : ℝ) (B : V → V) (pr : Params ℝ) (tol : ℝ) (b : V) :
    ∀ (m k : ℕ) (s : St V ℝ), (masterLoop (exactOps 𝕜 V eps) pr tol b m k s).eval B =
      loop (exactOps 𝕜 V eps) B pr tol b m k s := by
  intro m
  induction m with
  | zero => intro k s; rfl
  | succ m ih =>
    intro k s
    unfold masterLoop loop iter
    simp only [Prog.eval]
    by_cases h1 : (!(exactOps 𝕜 V eps).papValid ((exactOps 𝕜 V eps).inner s.p (B s.p))) = true
    · rw [if_pos h1, if_pos h1]; rfl
    rw [if_neg h1, if_neg h1]
    by_cases h2 : 3 ≤ stagNext (exactOps 𝕜 V eps) ((exactOps 𝕜 V eps).div s.rk ((exactOps 𝕜 V eps).inner s.p (B s.p)))
      s.p ((exactOps 𝕜 V eps).add s.x ((exactOps 𝕜 V eps).smul ((exactOps 𝕜 V eps).div s.rk ((exactOps 𝕜 V eps).inner s.p (B s.p))) s.p)) s.stag
    · rw [if_pos h2, if_pos h2]; rfl
    rw [if_neg h2, if_neg h2]
    by_cases h3 : recomputeNow pr k = true
    · rw [if_pos h3, if_pos h3]
      simp only [Prog.eval]
      split
      · rfl
      · exact ih _ _
    · rw [if_neg h3, if_neg h3]
      simp only [ex_add, ex_smul, ex_neg, ex_sub, neg_smul, sub_eq_add_neg]
      split
      · rename_i res heq; rw [heq]; rfl
      · rename_i s' heq; rw [heq]; exact ih _ _

theorem eval_masterProg (eps : ℝ) (B : V → V) (pr : Params ℝ) (b x0 : V) :
    (masterProg (exactOps 𝕜 V eps) b x0 pr).eval B = solve (exactOps 𝕜 V eps) B b x0 pr := by
  unfold masterProg solve
  simp only [Prog.eval]
  split_ifs
  · rfl
  · exact eval_masterLoop eps B pr _ b _ _ _

end exact

end QLPeps.CG
