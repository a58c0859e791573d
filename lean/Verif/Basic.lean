/-!
# Common vocabulary of the model

Result of a Go call: a value, an error value, or a panic.  Error texts are not modelled; errors are an
enumeration and `%w` wrapping is dropped (DESIGN.md).
-/
namespace Nimiq

/-- `[]byte` and Go `string`s. -/
abbrev Bytes := List UInt8

/-- Go's fixed size `[n]byte`. -/
abbrev BArr (n : Nat) := { l : Bytes // l.length = n }

/-- The all-zero `[n]byte` (Go's zero value). -/
def BArr.zero (n : Nat) : BArr n := ⟨List.replicate n 0, by simp⟩

/-- Go `copy(dst[:], src)` into a zeroed `[n]byte`: the first `n` bytes of `src`, zero padded. -/
def BArr.copy (n : Nat) (src : Bytes) : BArr n :=
  ⟨src.take n ++ List.replicate (n - src.length) 0, by simp; omega⟩

instance (n : Nat) : Inhabited (BArr n) := ⟨BArr.zero n⟩

/-- A Blake2b-256 like hash function; always a parameter. -/
abbrev Hash32 := BArr 32
abbrev Addr := BArr 20

/-- Error values returned by the modelled packages. -/
inductive Err where
  | eof                              -- beserial.ErrUnexpectedEOF
  | noLenTag                         -- beserial.ErrNoLenTag / "slice without len tag"
  | nonOptionalNil                   -- beserial.ErrNonOptionalNil
  | badBool                          -- "not a valid bool value"
  | badOptional                      -- "invalid optional flag"
  | badLen                           -- "got invalid slice len"
  | tooLargeAlloc                    -- "cannot allocate slice of %d for only %d bytes"
  | cannotMarshal                    -- "%s cannot be (un)marshalled"
  | invalidUnmarshal                 -- *InvalidUnmarshalError / "TODO error"
  | notFullyRead                     -- "%d bytes not deserialized", "got %d bytes of junk after message"
  | unknownMessage (t : UInt64)      -- wire.UnknownMessageError
  | badType (t : UInt8)              -- "invalid tx/account type", "invalid NetAddress type", "unknown protocol"
  | overspend (available spend : UInt64)
  | typeMismatch (expected got : UInt8)
  | invalidForRecipient (a : Addr)
  | pruneMissing (a : Addr)
  | pruneAltered (a : Addr)
  | pruneEarly (a : Addr)
  | badVestingData
  | badHashCount
  | missingProof
  | badProofType (t : UInt8)
  | htlcExpired
  | htlcNotExpired
  | htlcHashMismatch
  | badSignature
  | wrongSender
  | hashMismatch                     -- "unexpected tree hash"
  | fileError                        -- a file cannot be read or is not valid toml
  deriving DecidableEq, Repr

/-- How a Go call ends. -/
inductive Out (α : Type) where
  | ok (a : α)
  | err (e : Err)
  | panic
  deriving DecidableEq, Repr

namespace Out

@[simp] def bind {α β} : Out α → (α → Out β) → Out β
  | ok a, f => f a
  | err e, _ => err e
  | panic, _ => panic

instance : Monad Out where
  pure := ok
  bind := bind

@[simp] theorem pure_eq {α} (a : α) : (pure a : Out α) = ok a := rfl
@[simp] theorem bind_ok {α β} (a : α) (f : α → Out β) : (ok a >>= f) = f a := rfl
@[simp] theorem bind_err {α β} (e : Err) (f : α → Out β) : ((err e : Out α) >>= f) = err e := rfl
@[simp] theorem bind_panic {α β} (f : α → Out β) : ((panic : Out α) >>= f) = panic := rfl

theorem bind_eq_ok {α β} {x : Out α} {f : α → Out β} {b : β} :
    (x >>= f) = ok b ↔ ∃ a, x = ok a ∧ f a = ok b := by
  cases x <;> simp

def isPanic {α} : Out α → Bool
  | panic => true
  | _ => false

def isOk {α} : Out α → Bool
  | ok _ => true
  | _ => false

end Out
end Nimiq
