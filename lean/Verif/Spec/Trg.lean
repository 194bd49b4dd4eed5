import Verif.Model.Trg

/-!
# Specification for the TRG contractor
-/

namespace QLPeps.Trg.Spec

variable {T P I A : Type}

/-- The linear sizes a TRG contraction is defined for. -/
def Supported (n : ℕ) : Prop := ∃ k, n = 2 ^ k ∨ n = 3 * 2 ^ k

/-- A contractor with truncation parameters on which nothing has been called. -/
def blank (rows cols : ℕ) : Trg T P I := ⟨rows, cols, false, false, [], true⟩

/-- What a new contractor returns for a network: `Init`, then `Trace`. -/
def fresh (o : Ops T P I A) (tn : Net T) : Except Fail A :=
  match init (blank tn.rows tn.cols) tn with
  | (_, .error e) => .error e
  | (g, .ok _) => match trace o g tn with
    | .error e => .error e
    | .ok x => .ok x.2

/-- The network with one tensor replaced. -/
def Net.set (tn : Net T) (r c : ℕ) (t : T) : Net T :=
  { tn with ten := fun r' c' => if r' = r ∧ c' = c then t else tn.ten r' c' }

/-- The network with tensors replaced, one after the other. -/
def Net.sets (tn : Net T) (reps : List ((ℕ × ℕ) × T)) : Net T :=
  reps.foldl (fun tn x => Net.set tn x.1.1 x.1.2 x.2) tn

/-- The calls a sampler makes after the first `Trace`. A trial is committed or dropped. -/
inductive Call (T : Type)
  | trial (reps : List ((ℕ × ℕ) × T)) (accept : Bool)
  | evaluate (reps : List ((ℕ × ℕ) × T))
  | trace

/-- The replacements of a call lie in the network. -/
def Call.InRange (rows cols : ℕ) : Call T → Prop
  | .trial reps _ => ∀ x ∈ reps, x.1.1 < rows ∧ x.1.2 < cols
  | .evaluate reps => ∀ x ∈ reps, x.1.1 < rows ∧ x.1.2 < cols
  | .trace => True

/-- The caller: the amplitudes returned, in order. `tn` is the caller's network, which follows the committed trials. -/
def run (o : Ops T P I A) : Trg T P I → Net T → List (Call T) → Except Fail (List A)
  | _, _, [] => .ok []
  | g, tn, .trial reps accept :: cs =>
    match beginTrial o g reps with
    | .error e => .error e
    | .ok t =>
      if accept then
        match commit o g t with
        | .error e => .error e
        | .ok g => match run o g (Net.sets tn reps) cs with
          | .error e => .error e
          | .ok l => .ok (t.amp :: l)
      else match run o g tn cs with
        | .error e => .error e
        | .ok l => .ok (t.amp :: l)
  | g, tn, .evaluate reps :: cs =>
    match evaluate o g reps with
    | .error e => .error e
    | .ok a => match run o g tn cs with
      | .error e => .error e
      | .ok l => .ok (a :: l)
  | g, tn, .trace :: cs =>
    match Trg.trace o g tn with
    | .error e => .error e
    | .ok (g, a) => match run o g tn cs with
      | .error e => .error e
      | .ok l => .ok (a :: l)

/-- The networks whose amplitudes the caller asks for, in order. -/
def asked : Net T → List (Call T) → List (Net T)
  | _, [] => []
  | tn, .trial reps accept :: cs =>
    Net.sets tn reps :: asked (if accept then Net.sets tn reps else tn) cs
  | tn, .evaluate reps :: cs => Net.sets tn reps :: asked tn cs
  | tn, .trace :: cs => tn :: asked tn cs

end QLPeps.Trg.Spec
