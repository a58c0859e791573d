/-!
# Specification of the emission schedule, over unbounded naturals, without cache
-/
namespace Nimiq.Policy.Spec

/-- Cap in Luna. -/
def cap : Nat := 2100000000000000
def genesisSupply : Nat := 252000000000000
def tailStart : Nat := 48692960
def tailReward : Nat := 4000

/-- Reward of block `h ≥ 1` when `s` Luna exist: `1/2^22` of what is left (rounded down); from `tailStart` on,
a constant 4000 as long as there is that much left. -/
def reward (s h : Nat) : Nat :=
  if h ≥ tailStart ∧ cap - s ≥ tailReward then tailReward else (cap - s) / 2^22

/-- Supply once blocks `1..h` have been rewarded. -/
def supply : Nat → Nat
  | 0 => genesisSupply
  | h+1 => supply h + reward (supply h) (h+1)

end Nimiq.Policy.Spec
