import Verif.Model.Nested

/-! Direct evaluation of programs: a submitted call is a suspended direct call, `get` evaluates it. No processes, no
messages. -/
namespace Verif.Spec
open Verif.Nested (Prog Arg Val Got)

/-- A suspended direct call. -/
inductive Thunk
  | lit (v : Val)
  | call (fn : Nat) (args : List Thunk)

/-- Arguments as suspended calls; `none` if a program names a reference that it did not create. -/
def thunkArgs (env : List (Thunk × Bool)) : List Arg → Option (List Thunk)
  | [] => some []
  | .lit v :: as => (thunkArgs env as).map (.lit v :: ·)
  | .var i :: as =>
    match env[i]?, thunkArgs env as with
    | some t, some l => some (t.1 :: l)
    | _, _ => none

/-- The exception among the values, the first if there are several. -/
def failedOne (vs : List Val) : Option Nat :=
  vs.findSome? fun v => match v with
    | .ok _ => none
    | .exc e => some e

/-- The numbers among the values. -/
def numbers (vs : List Val) : List Nat :=
  vs.filterMap fun v => match v with
    | .ok n => some n
    | .exc _ => none

/-- What evaluating a suspended call gives: an exception is raised, unless it is `kept`, that is an object that is just
there. -/
def outcome (kept : Bool) : Val → Got
  | .exc e => if kept then .value (.exc e) else .raised e
  | .ok n => .value (.ok n)

mutual

/-- The value of a suspended call: the values of the arguments, then the body of the function. The first number bounds the
depth of the evaluation. The flag `again` is explained at `evalProg`. -/
def force (body : Nat → List Nat → Prog) (again : Bool) : Nat → Thunk → Option Val
  | 0, _ => none
  | _ + 1, .lit v => some v
  | fuel + 1, .call fn args =>
    match forceAll body again fuel args with
    | none => none
    | some vs =>
      match failedOne vs with
      | some e => some (.exc e)
      | none => evalProg body again fuel (body fn (numbers vs)) []

/-- The values of several suspended calls. -/
def forceAll (body : Nat → List Nat → Prog) (again : Bool) : Nat → List Thunk → Option (List Val)
  | 0, _ => none
  | _ + 1, [] => some []
  | fuel + 1, t :: ts =>
    match force body again fuel t, forceAll body again fuel ts with
    | some v, some vs => some (v :: vs)
    | _, _ => none

/-- The value of a program that created the suspended calls `env` so far; the flag of each tells whether it is an object that
is just there. With `again = false` these are the objects given to `put`: every evaluation of a failing call raises. With
`again = true` a call becomes such an object when it is evaluated for the first time: a second `get` returns the exception. -/
def evalProg (body : Nat → List Nat → Prog) (again : Bool) : Nat → Prog → List (Thunk × Bool) → Option Val
  | 0, _, _ => none
  | _ + 1, .ret v, _ => some v
  | fuel + 1, .put v next, env => evalProg body again fuel next (env ++ [(.lit v, true)])
  | fuel + 1, .call fn args next, env =>
    match thunkArgs env args with
    | none => none
    | some l => evalProg body again fuel next (env ++ [(.call fn l, false)])
  | fuel + 1, .get x next, env =>
    match env[x]? with
    | none => none
    | some (t, kept) =>
      match force body again fuel t with
      | none => none
      | some v => evalProg body again fuel (next (outcome kept v)) (env.set x (t, kept || again))

end

mutual

/-- `force`, if the calls that wait for each other are at most `d` deep. The first number is the bound of the evaluation, the second
one is `d`. -/
def forceWithin (body : Nat → List Nat → Prog) : Nat → Nat → Thunk → Option Val
  | 0, _, _ => none
  | _ + 1, _, .lit v => some v
  | fuel + 1, d, .call fn args =>
    match forceAllWithin body fuel d args with
    | none => none
    | some vs =>
      match failedOne vs with
      | some e => some (.exc e)
      | none => evalWithin body fuel d (body fn (numbers vs)) []

/-- `forceAll` in the same way. -/
def forceAllWithin (body : Nat → List Nat → Prog) : Nat → Nat → List Thunk → Option (List Val)
  | 0, _, _ => none
  | _ + 1, _, [] => some []
  | fuel + 1, d, t :: ts =>
    match forceWithin body fuel d t, forceAllWithin body fuel d ts with
    | some v, some vs => some (v :: vs)
    | _, _ => none

/-- `evalProg` in the same way: a `get` of a value that is not there waits, and what it waits for may only wait `d - 1` deep. -/
def evalWithin (body : Nat → List Nat → Prog) : Nat → Nat → Prog → List (Thunk × Bool) → Option Val
  | 0, _, _, _ => none
  | _ + 1, _, .ret v, _ => some v
  | fuel + 1, d, .put v next, env => evalWithin body fuel d next (env ++ [(.lit v, true)])
  | fuel + 1, d, .call fn args next, env =>
    match thunkArgs env args with
    | none => none
    | some l => evalWithin body fuel d next (env ++ [(.call fn l, false)])
  | fuel + 1, d, .get x next, env =>
    match env[x]? with
    | none => none
    | some (t, true) =>
      match force body true fuel t with
      | none => none
      | some v => evalWithin body fuel d (next (outcome true v)) env
    | some (t, false) =>
      match d with
      | 0 => none
      | d + 1 =>
        match forceWithin body fuel d t with
        | none => none
        | some v => evalWithin body fuel (d + 1) (next (outcome false v)) (env.set x (t, true))

end

/-- Every reference that the program names was created by it; `k` references exist already. -/
def Scoped : Nat → Prog → Prop
  | _, .ret _ => True
  | k, .put _ next => Scoped (k + 1) next
  | k, .call _ args next => (∀ i, Arg.var i ∈ args → i < k) ∧ Scoped (k + 1) next
  | k, .get x next => x < k ∧ ∀ g, Scoped k (next g)

/-- The program never waits for a value. -/
def NoGet : Prog → Prop
  | .ret _ => True
  | .put _ next => NoGet next
  | .call _ _ next => NoGet next
  | .get _ _ => False

/-- The program calls `get` at most once for each reference (those in `seen` were used already), or goes on in the same way
whether an exception is raised or returned. -/
def Careful : List Nat → Prog → Prop
  | _, .ret _ => True
  | seen, .put _ next => Careful seen next
  | seen, .call _ _ next => Careful seen next
  | seen, .get x next => (x ∉ seen ∨ ∀ e, next (.raised e) = next (.value (.exc e))) ∧ ∀ g, Careful (x :: seen) (next g)

/-- Process `r` is inside `get` of the reference `p`, whose value it does not have. -/
def WaitsFor (s : Nested.State) (r p : Nat) : Prop :=
  ∃ out x next env, s.run r = some ⟨out, .get x next, env⟩ ∧ env[x]? = some p ∧ s.store r p = none

/-- The value of `p` cannot be delivered because of the waiting process `q`: the owner of `p` is `q`, or the task that makes
it has not started and lacks an argument that cannot be delivered because of `q`. -/
inductive HeldBy (s : Nested.State) : Nat → Nat → Prop
  | owner (p y : Nat) : WaitsFor s (s.home p) y → HeldBy s p (s.home p)
  | argument (p a q : Nat) (t : Nested.Task) : t ∈ s.inbox (s.home p) → t.out = p → Nested.Sent.ref a ∈ t.args →
      s.store (s.home p) a = none → HeldBy s a q → HeldBy s p q

/-- Workers `c 0`, …, `c n = c 0`, each of which waits for a value that cannot be delivered because the next one waits. -/
def WaitCycle (W : Nested.World) (s : Nested.State) (n : Nat) (c : Nat → Nat) : Prop :=
  2 ≤ n ∧ c n = c 0 ∧ ∀ i, i < n → c i ∈ W.workers ∧ c i ≠ c (i + 1) ∧ ∃ p, WaitsFor s (c i) p ∧ HeldBy s p (c (i + 1))

end Verif.Spec
