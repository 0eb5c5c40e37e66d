import Verif.Reg.RegModel

/-!
# Model of the snapshots of overloads of a generic operator

`GenericOperator::GetSnapshot` and `BuildSnapshot` — `arolla/expr/operator_loader/generic_operator.cc`:160-215.

An interleaving model on top of that of the registry (`Reg/RegModel.lean`): any number of calls of `GetSnapshot` of one generic operator
run among the calls of `Register` and `UnsafeUnregister`.  Atomic steps are: a load or store of the snapshot (`ThreadSafeSharedPtr`), a load
of the revision id, the copy of the list of names under the mutex, a load of an operator implementation.

* An operator implementation is a number; `isOverload` tells whether it is a `GenericOperatorOverload`.  Implementations that are
  registered operators themselves (aliases) are not followed.
* `LookupOperatorOrNull` and `DecayRegisteredOperator` load the implementation one after the other and skip the name if one of them is null;
  this is the same as a single load at the time of the one that decides.
* Compiling the conditions succeeds; what is compiled is determined by the overloads.
-/

namespace Verif.Generic

open Verif.Reg

/-- `SnapshotOfOverloads` — generic_operator.h:84-88. -/
structure Snap where
  rev : Nat
  overloads : List (Name × Nat)

/-- The name stands in the namespace of the overloads — generic_operator.cc:168-170. -/
def under (ns n : Name) : Bool := decide (ns.length < n.length) && decide (n.take ns.length = ns) && n[ns.length]? == some Str.dot

/-- Program counters of `GetSnapshot`; `start` is the state of the registry when the call began (not used by the code). -/
inductive GPc where
  /-- before the load of the snapshot — generic_operator.cc:208 -/
  | load (start : St)
  /-- before the load of the revision id — generic_operator.cc:209 -/
  | check (start : St) (snap : Snap)
  /-- before the load of the revision id of the new snapshot — generic_operator.cc:164 -/
  | build0 (start : St)
  /-- before the listing — generic_operator.cc:167 -/
  | build1 (start : St) (rev : Nat)
  /-- in the loop over the names; at its end before the store of the snapshot — generic_operator.cc:167-192, 213 -/
  | build2 (start : St) (rev : Nat) (names : List Name) (overloads : List (Name × Nat))

/-- What a step does: the stored snapshot, and the next program counter or what the call returns. -/
structure COut where
  cache : Option Snap
  next : Sum GPc Snap

/-- One atomic step of a call. -/
def callStep (ns : Name) (isOverload : Nat → Bool) (r : St) (cache : Option Snap) : GPc → COut
  | .load st =>
    match cache with
    | none => ⟨cache, .inl (.build0 st)⟩
    | some c => ⟨cache, .inl (.check st c)⟩
  | .check st c => if c.rev = revision r ns then ⟨cache, .inr c⟩ else ⟨cache, .inl (.build0 st)⟩
  | .build0 st => ⟨cache, .inl (.build1 st (revision r ns))⟩
  | .build1 st rev => ⟨cache, .inl (.build2 st rev (r.listing.filter (under ns)) [])⟩
  | .build2 st rev (n :: names) acc =>
    match lookup r n with
    | none => ⟨cache, .inl (.build2 st rev names acc)⟩
    | some x => ⟨cache, .inl (.build2 st rev names (if isOverload x then acc ++ [(n, x)] else acc))⟩
  | .build2 _ rev [] acc => ⟨some ⟨rev, acc⟩, .inr ⟨rev, acc⟩⟩

def GPc.start : GPc → St
  | .load st | .check st _ | .build0 st | .build1 st _ | .build2 st _ _ _ => st

/-- The registry, `snapshot_of_overloads_`, the calls of `GetSnapshot` in progress and, for the specification, what the calls returned with
the states of the registry when they began and returned. -/
structure GSt where
  reg : St
  cache : Option Snap
  calls : List GPc
  rets : List (St × Snap × St)

/-- No snapshot, no calls. -/
def GSt.init : GSt := ⟨St.init, none, [], []⟩

inductive GAct where
  /-- an action of the registry -/
  | reg (a : Act)
  /-- a call of `GetSnapshot` begins -/
  | start
  /-- a step of a call -/
  | advance (k : Nat)

/-- A registration that has incremented the revision id of `ns` but not yet listed its name. -/
def unlisted (ns : Name) : Pc → Bool
  | .reg3 n _ none => under ns n
  | .reg3 n _ (some c) => under ns n && !(c == ns || under ns c || ns == [])
  | _ => false

def GPc.isListing : GPc → Bool
  | .build1 _ _ => true
  | _ => false

/-- An action; `quiet`: the names are not listed while a registration is `unlisted`. -/
def gact (ns : Name) (isOverload : Nat → Bool) (quiet : Bool) (g : GSt) : GAct → Option GSt
  | .reg a => (act true g.reg a).map fun r => { g with reg := r }
  | .start => some { g with calls := g.calls ++ [.load g.reg] }
  | .advance k =>
    match g.calls[k]? with
    | none => some g
    | some pc =>
      if quiet && pc.isListing && g.reg.ops.any (unlisted ns) then some g
      else match callStep ns isOverload g.reg g.cache pc with
        | ⟨cache, .inl pc'⟩ => some { g with cache, calls := g.calls.set k pc' }
        | ⟨cache, .inr s⟩ => some { g with cache, calls := g.calls.eraseIdx k, rets := (pc.start, s, g.reg) :: g.rets }

def grun (ns : Name) (isOverload : Nat → Bool) (quiet : Bool) (g : GSt) : List GAct → Option GSt
  | [] => some g
  | a :: as => do grun ns isOverload quiet (← gact ns isOverload quiet g a) as

end Verif.Generic
