import Verif.Basic
/-!
# Model of `policy/policy.go`
-/
namespace Nimiq.Policy

/-- policy.go:69 `TotalSupply` -/
def totalSupply : UInt64 := 2100000000000000
/-- policy.go:71 `InitialSupply` -/
def initialSupply : UInt64 := 252000000000000
/-- policy.go:73 `EmissionTailStart` -/
def emissionTailStart : UInt32 := 48692960
/-- policy.go:75 `EmissionTailReward` -/
def emissionTailReward : UInt64 := 4000
/-- policy.go:77 `EmissionSpeed` -/
def emissionSpeed : UInt64 := 4194304
/-- policy.go:33 `SupplyCacheInterval` -/
def supplyCacheInterval : UInt32 := 5000

/-- policy.go:79-89 `BlockRewardBySupply`, with Go's wrapping uint64 arithmetic. -/
def blockRewardBySupply (supply : UInt64) (height : UInt32) : UInt64 :=
  if height = 0 then 0
  else
    let remaining := totalSupply - supply
    if height ≥ emissionTailStart ∧ remaining ≥ emissionTailReward then emissionTailReward
    else
      let remainder := remaining % emissionSpeed
      (remaining - remainder) / emissionSpeed

/-- The body of the loop of policy.go:63-65, `n` iterations starting at counter `i`. -/
def supplyLoop : Nat → UInt32 → UInt64 → UInt64
  | 0, _, s => s
  | n+1, i, s => supplyLoop n (i+1) (s + blockRewardBySupply s i)

/-- policy.go:62-67 `SupplyBetween`: `for i := startHeight; i < endHeight; i++`; the number of iterations is
`endHeight - startHeight` when that is positive and 0 otherwise (`i` cannot wrap before reaching `endHeight`). -/
def supplyBetween (supply : UInt64) (startHeight endHeight : UInt32) : UInt64 :=
  supplyLoop (endHeight.toNat - startHeight.toNat) startHeight supply

/-- policy.go:42-49: choice of the cache slot to start from. -/
def startIndex (cache : List UInt64) (endI : UInt32) : UInt32 :=
  if cache.length = 0 then 0
  else if UInt32.ofNat (cache.length - 1) < endI then UInt32.ofNat (cache.length - 1)
  else endI

/-- policy.go:51-56: the cache filling loop, `n` iterations from `i`; returns the last supply and the new cache. -/
def fillLoop : Nat → UInt32 → UInt64 → List UInt64 → UInt64 × List UInt64
  | 0, _, s, c => (s, c)
  | n+1, i, s, c =>
    let startHeight := i * supplyCacheInterval
    let endHeight := startHeight + supplyCacheInterval
    let s' := supplyBetween s startHeight endHeight
    fillLoop n (i+1) s' (c ++ [s'])

/-- policy.go:38-60 `SupplyAfter`, as a function from the global `supplyCache` to the result and the new cache.
(`panic`: `supplyCache[startI]` out of range.) -/
def supplyAfter (cache : List UInt64) (height : UInt32) : Out (UInt64 × List UInt64) :=
  let endI := height / supplyCacheInterval
  let startI := startIndex cache endI
  match cache[startI.toNat]? with
  | none => .panic
  | some supply =>
    let (supply, cache) := fillLoop (endI.toNat - startI.toNat) startI supply cache
    .ok (supplyBetween supply (endI * supplyCacheInterval) (height + 1), cache)

/-- policy.go:35: initial value of the global cache. -/
def initCache : List UInt64 := [initialSupply]

/-- policy.go:25-31 `BlockReward`. -/
def blockReward (cache : List UInt64) (height : UInt32) : Out (UInt64 × List UInt64) :=
  if height < 1 then .panic
  else
    match supplyAfter cache (height - 1) with
    | .ok (supply, cache) => .ok (blockRewardBySupply supply height, cache)
    | .err e => .err e
    | .panic => .panic

/-! ## The same function as a goroutine: small steps with the mutex

`supplyCacheLock` is held from policy.go:41 to policy.go:57.  Program points of one call: -/
inductive Pc where
  | init (height : UInt32)                                  -- before Lock()
  | locked (height : UInt32)                                -- lock held, line 42
  | loop (height : UInt32) (i : UInt32) (supply : UInt64)   -- lock held, line 51
  | append (height : UInt32) (i : UInt32) (supply : UInt64) -- lock held, line 55 (supply already updated)
  | unlocked (height : UInt32) (supply : UInt64)            -- after Unlock(), line 59
  | done (height : UInt32) (result : UInt64)
  | crashed (height : UInt32)                               -- index out of range
  deriving DecidableEq, Repr

/-- The thread holds the lock. -/
def Pc.critical : Pc → Bool
  | .locked _ | .loop _ _ _ | .append _ _ _ => true
  | _ => false

/-- Global state: cache, lock owner, all goroutines. -/
structure Sys where
  cache : List UInt64
  lock : Option Nat
  threads : Nat → Pc

def setThread (f : Nat → Pc) (t : Nat) (p : Pc) : Nat → Pc := fun x => if x = t then p else f x

/-- One step of goroutine `t`; `none` when it is blocked on the mutex or finished. -/
def stepThread (s : Sys) (t : Nat) : Option Sys :=
  match s.threads t with
  | .init h =>
    match s.lock with
    | none => some { s with lock := some t, threads := setThread s.threads t (.locked h) }
    | some _ => none
  | .locked h =>
    let endI := h / supplyCacheInterval
    let startI := startIndex s.cache endI
    match s.cache[startI.toNat]? with
    | none => some { s with threads := setThread s.threads t (.crashed h) }
    | some supply => some { s with threads := setThread s.threads t (.loop h startI supply) }
  | .loop h i supply =>
    if i < h / supplyCacheInterval then
      let startHeight := i * supplyCacheInterval
      let endHeight := startHeight + supplyCacheInterval
      some { s with threads := setThread s.threads t (.append h i (supplyBetween supply startHeight endHeight)) }
    else
      some { s with lock := none, threads := setThread s.threads t (.unlocked h supply) }
  | .append h i supply =>
    some { s with cache := s.cache ++ [supply], threads := setThread s.threads t (.loop h (i+1) supply) }
  | .unlocked h supply =>
    let r := supplyBetween supply ((h / supplyCacheInterval) * supplyCacheInterval) (h + 1)
    some { s with threads := setThread s.threads t (.done h r) }
  | .done _ _ => none
  | .crashed _ => none

/-- Any schedule: a list of goroutine ids; a blocked goroutine's turn is a no-op. -/
def runSched (s : Sys) : List Nat → Sys
  | [] => s
  | t :: ts => runSched ((stepThread s t).getD s) ts

/-- Program start: goroutine `t` calls `SupplyAfter (heights t)`. -/
def startSys (heights : Nat → UInt32) : Sys :=
  { cache := initCache, lock := none, threads := fun t => .init (heights t) }

end Nimiq.Policy
