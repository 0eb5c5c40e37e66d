/-!
# Model of `CancellationContext::ScopeGuard` — `arolla/util/cancellation.{h,cc}`

The state of one thread: the thread-local data and the live guards.  A guard is identified by the number of its
construction, a context by a number.  `.crash` is a failed `CHECK`, `.ub` the use of a destroyed guard.
-/

namespace Verif.Conc.Scope

/-- `ScopeGuard` — cancellation.h:170-171. -/
structure Guard where
  ctx : Option Nat
  prev : Option Nat

/-- `ThreadLocalData` — cancellation.h:175-181; the flag pointer is the flag of `ctx` or the stub which is never
set — cancellation.cc:126-136. -/
structure Tls where
  ctx : Option Nat
  guard : Option Nat

structure St where
  tls : Tls
  guards : Nat → Option Guard
  next : Nat

def St.init : St := ⟨⟨none, none⟩, fun _ => none, 0⟩

inductive Res (α : Type) where
  | ok (a : α)
  | crash
  | ub

def Res.bind {α β : Type} : Res α → (α → Res β) → Res β
  | .ok a, f => f a
  | .crash, _ => .crash
  | .ub, _ => .ub

/-- `UpdateThreadLocalData` — cancellation.cc:123-138. -/
def update (guards : Nat → Option Guard) (g : Option Nat) : Res Tls :=
  match g with
  | none => .ok ⟨none, none⟩
  | some i =>
    match guards i with
    | none => .ub
    | some gd => .ok ⟨gd.ctx, some i⟩

/-- Constructor — cancellation.cc:109-114. -/
def make (s : St) (ctx : Option Nat) : Res St :=
  let guards := fun j => if j = s.next then some ⟨ctx, s.tls.guard⟩ else s.guards j
  (update guards (some s.next)).bind fun t => .ok ⟨t, guards, s.next + 1⟩

/-- Destructor — cancellation.cc:116-121; the guard no longer exists afterwards. -/
def destroy (s : St) (g : Nat) : Res St :=
  match s.guards g with
  | none => .ub
  | some gd =>
    if s.tls.guard = some g then
      (update s.guards gd.prev).bind fun t => .ok ⟨t, fun j => if j = g then none else s.guards j, s.next⟩
    else .crash

/-- `Cancelled()` — cancellation.h:228-231: `flags` are the flags of the contexts. -/
def cancelled (flags : Nat → Bool) (s : St) : Bool :=
  match s.tls.ctx with
  | none => false
  | some c => flags c

inductive Op where
  | make (ctx : Option Nat)
  | destroy (g : Nat)

def step (s : St) : Op → Res St
  | .make c => make s c
  | .destroy g => destroy s g

def run (s : St) : List Op → Res St
  | [] => .ok s
  | o :: os => (step s o).bind fun s' => run s' os

end Verif.Conc.Scope
