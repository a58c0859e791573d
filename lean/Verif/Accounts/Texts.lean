import Verif.Basic
import Verif.Address.Props
/-!
# C145: texts of errors

Go strings are lists of bytes. What `fmt` does with the verbs that occur is written out here: `%d` of an unsigned number, `%x` of a
signed number and of a pointer to an array.
-/
namespace Nimiq.Accounts
open Nimiq.Address (encode decode)

/-- A literal of the source code (ASCII only). -/
def lit (s : String) : Bytes := s.toList.map fun c => UInt8.ofNat c.toNat

/-- fmt's digits: `0123456789abcdef` -/
def digitText (d : Nat) : UInt8 := if d < 10 then UInt8.ofNat (48 + d) else UInt8.ofNat (87 + d)

/-- fmt's unsigned numbers: `%d` with base 10, `%x` with base 16 -/
def numText (base n : Nat) : Bytes :=
  if _h : base < 2 ∨ n < base then [digitText n] else numText base (n / base) ++ [digitText (n % base)]
termination_by n
decreasing_by
  exact Nat.div_lt_self (by omega) (by omega)

/-- fmt's `%x` of bytes: two digits each -/
def hexText (bs : Bytes) : Bytes := bs.flatMap fun b => [digitText (b.toNat / 16), digitText (b.toNat % 16)]

/-- The errors of Push that carry data, with their data. -/
inductive Report where
  /-- `wire.OverspendError` -/
  | overspend (available spend : UInt64)
  /-- `AccountTypeMismatchError` -/
  | mismatch (expected got : UInt8)
  /-- `InvalidForSenderError`, made by no code of the repository, with the text of the error in it -/
  | sender (address : Bytes) (inner : Bytes)
  /-- `InvalidForRecipientError` of a contract creation for a basic account -/
  | recipientBasic (address : Bytes)
  /-- `InvalidForRecipientError` of a contract creation of an unknown type -/
  | recipientType (address : Bytes) (type : UInt8)
  /-- `InvalidPruneError`: missing -/
  | pruneMissing (address : Bytes)
  /-- `InvalidPruneError`: altered -/
  | pruneAltered (address : Bytes)
  /-- `InvalidPruneError`: too early -/
  | pruneEarly (address : Bytes)
  deriving DecidableEq

/-- Addresses have 20 bytes. -/
def Report.Ok : Report → Prop
  | .overspend _ _ | .mismatch _ _ => True
  | .sender a _ | .recipientBasic a | .recipientType a _ | .pruneMissing a | .pruneAltered a | .pruneEarly a => a.length = 20

/-- accounts.go:279-281: `%x` of `&i.Address`, a pointer to an array, is an ampersand and the digits -/
def senderText (a inner : Bytes) : Bytes := lit "invalid for sender &" ++ hexText a ++ lit ": " ++ inner

/-- accounts.go:292-294 -/
def recipientText (a inner : Bytes) : Bytes := lit "invalid for recipient &" ++ hexText a ++ lit ": " ++ inner

/-- accounts.go:301-303 -/
def pruneText (a inner : Bytes) : Bytes := lit "invalid prune of account " ++ encode a ++ lit ": " ++ inner

/-- The `Error` methods: account.go:101-103, accounts.go:265-268, 275-277, 288-290, 301-303; the errors inside:
accounts.go:181, 187, 204, 222, 231 -/
def Report.text : Report → Bytes
  | .overspend available spend =>
    lit "trying to spend " ++ numText 10 spend.toNat ++ lit " but only has " ++ numText 10 available.toNat
  | .mismatch expected got => lit "account type mismatch: got " ++ numText 10 got.toNat ++ lit " want " ++ numText 10 expected.toNat
  | .sender a inner => senderText a inner
  | .recipientBasic a => recipientText a (lit "contract creation for basic account")
  | .recipientType a t => recipientText a (lit "invalid recipient type: " ++ numText 10 t.toNat)
  | .pruneMissing a => pruneText a (lit "account missing in prune list")
  | .pruneAltered a => pruneText a (lit "altered account in prune list")
  | .pruneEarly a => pruneText a (lit "account pruned too early")

/-- msg_types.go:94, 153-157 `UnknownMessageError(msgType).Error()`: the type is converted to `int64`, and `%x` of a negative
number is a minus sign and the digits of the absolute value -/
def unknownMessageText (t : UInt64) : Bytes :=
  lit "unknown message type: 0x" ++
    if t.toNat < 2 ^ 63 then numText 16 t.toNat else lit "-" ++ numText 16 (2 ^ 64 - t.toNat)

/-! ## Reading numbers -/

/-- A decimal or lower-case hexadecimal digit. -/
def IsDigit (c : UInt8) : Prop := 48 ≤ c.toNat ∧ c.toNat ≤ 57 ∨ 97 ≤ c.toNat ∧ c.toNat ≤ 102

instance (c : UInt8) : Decidable (IsDigit c) := by unfold IsDigit; infer_instance

/-- the value of a digit -/
def digitValue (c : UInt8) : Nat := if c.toNat < 97 then c.toNat - 48 else c.toNat - 87

/-- the number that digits stand for -/
def readNum (base : Nat) (s : Bytes) : Nat := s.foldl (fun n c => n * base + digitValue c) 0

theorem digit_ok : ∀ d < 16, IsDigit (digitText d) ∧ digitValue (digitText d) = d := by decide

theorem numText_ok {base : Nat} (h2 : 2 ≤ base) (h16 : base ≤ 16) (n : Nat) :
    (∀ c ∈ numText base n, IsDigit c) ∧ readNum base (numText base n) = n := by
  induction n using Nat.strongRecOn with
  | ind n ih =>
    rw [numText]
    split
    · have hn : n < base := by omega
      have := digit_ok n (by omega)
      refine ⟨fun c hc => ?_, ?_⟩
      · rw [List.mem_singleton] at hc; rw [hc]; exact this.1
      · simp [readNum, this.2]
    · have hlt : n / base < n := Nat.div_lt_self (by omega) (by omega)
      have i := ih _ hlt
      have hm : n % base < base := Nat.mod_lt _ (by omega)
      have hd := digit_ok (n % base) (by omega)
      refine ⟨fun c hc => ?_, ?_⟩
      · rw [List.mem_append, List.mem_singleton] at hc
        rcases hc with hc | hc
        · exact i.1 c hc
        · rw [hc]; exact hd.1
      · have i2 := i.2
        simp only [readNum, List.foldl_append, List.foldl_cons, List.foldl_nil, hd.2] at i2 ⊢
        rw [i2, Nat.mul_comm]
        exact Nat.div_add_mod n base

theorem numText_inj {base : Nat} (h2 : 2 ≤ base) (h16 : base ≤ 16) {m n : Nat} (h : numText base m = numText base n) : m = n := by
  rw [← (numText_ok h2 h16 m).2, h, (numText_ok h2 h16 n).2]

/-- Digits followed by something that is no digit can be told from what follows. -/
theorem digits_end {s t : Bytes} {x : UInt8} (hx : ¬ IsDigit x) {u v : Bytes} (hs : ∀ c ∈ s, IsDigit c) (ht : ∀ c ∈ t, IsDigit c)
    (h : s ++ x :: u = t ++ x :: v) : s = t ∧ u = v := by
  induction s generalizing t with
  | nil =>
    cases t with
    | nil => simpa using h
    | cons c t =>
      simp only [List.nil_append, List.cons_append, List.cons.injEq] at h
      exact absurd (h.1 ▸ ht c (by simp)) hx
  | cons c s ih =>
    cases t with
    | nil =>
      simp only [List.nil_append, List.cons_append, List.cons.injEq] at h
      exact absurd (h.1 ▸ hs c (by simp)) hx
    | cons d t =>
      simp only [List.cons_append, List.cons.injEq] at h
      obtain ⟨e, h⟩ := h
      obtain ⟨e1, e2⟩ := ih (fun c hc => hs c (by simp [hc])) (fun c hc => ht c (by simp [hc])) h
      exact ⟨by rw [e, e1], e2⟩

theorem hexText_length (a : Bytes) : (hexText a).length = 2 * a.length := by
  induction a with
  | nil => rfl
  | cons b a ih =>
    simp only [hexText, List.flatMap_cons, List.length_append, List.length_cons, List.length_nil] at ih ⊢
    omega

theorem hexText_inj {a b : Bytes} (h : hexText a = hexText b) : a = b := by
  induction a generalizing b with
  | nil =>
    cases b with
    | nil => rfl
    | cons y b => simp [hexText] at h
  | cons x a ih =>
    cases b with
    | nil => simp [hexText] at h
    | cons y b =>
      simp only [hexText, List.flatMap_cons, List.cons_append, List.nil_append, List.cons.injEq] at h
      obtain ⟨h1, h2, h3⟩ := h
      have hx := x.toNat_lt
      have hy := y.toNat_lt
      have e1 : x.toNat / 16 = y.toNat / 16 := by
        have := congrArg digitValue h1
        rwa [(digit_ok _ (by omega)).2, (digit_ok _ (by omega)).2] at this
      have e2 : x.toNat % 16 = y.toNat % 16 := by
        have := congrArg digitValue h2
        rwa [(digit_ok _ (by omega)).2, (digit_ok _ (by omega)).2] at this
      have : x = y := UInt8.toNat_inj.mp (by omega)
      rw [this, ih h3]

/-- Two numbers with a literal between them. -/
theorem two_nums {m n m' n' : Nat} {x : UInt8} {l : Bytes} (hx : ¬ IsDigit x)
    (h : numText 10 m ++ (x :: l ++ numText 10 n) = numText 10 m' ++ (x :: l ++ numText 10 n')) : m = m' ∧ n = n' := by
  rw [List.cons_append, List.cons_append] at h
  obtain ⟨h1, h2⟩ := digits_end hx (numText_ok (by omega) (by omega) m).1 (numText_ok (by omega) (by omega) m').1 h
  exact ⟨numText_inj (by omega) (by omega) h1, numText_inj (by omega) (by omega) (List.append_cancel_left h2)⟩

theorem senderText_inj {a b i j : Bytes} (ha : a.length = 20) (hb : b.length = 20) (h : senderText a i = senderText b j) :
    a = b ∧ i = j := by
  unfold senderText at h
  simp only [List.append_assoc] at h
  have h := List.append_cancel_left h
  obtain ⟨h1, h2⟩ := List.append_inj h (by rw [hexText_length, hexText_length, ha, hb])
  exact ⟨hexText_inj h1, List.append_cancel_left h2⟩

theorem recipientText_inj {a b i j : Bytes} (ha : a.length = 20) (hb : b.length = 20) (h : recipientText a i = recipientText b j) :
    a = b ∧ i = j := by
  unfold recipientText at h
  simp only [List.append_assoc] at h
  have h := List.append_cancel_left h
  obtain ⟨h1, h2⟩ := List.append_inj h (by rw [hexText_length, hexText_length, ha, hb])
  exact ⟨hexText_inj h1, List.append_cancel_left h2⟩

theorem pruneText_inj {a b i j : Bytes} (ha : a.length = 20) (hb : b.length = 20) (h : pruneText a i = pruneText b j) :
    a = b ∧ i = j := by
  unfold pruneText at h
  simp only [List.append_assoc] at h
  have h := List.append_cancel_left h
  obtain ⟨_, _, _, _, la, _⟩ := Address.C16_format a ha
  obtain ⟨_, _, _, _, lb, _⟩ := Address.C16_format b hb
  obtain ⟨h1, h2⟩ := List.append_inj h (by rw [la, lb])
  have d := Address.C15_decode_encode a ha
  rw [h1, Address.C15_decode_encode b hb] at d
  injection d with d
  exact ⟨d.symm, List.append_cancel_left h2⟩

theorem take_lit {l : Bytes} (h : 13 ≤ l.length) (r : Bytes) : (l ++ r).take 13 = l.take 13 := List.take_append_of_le_length h

/-- The five kinds of errors, by the first 13 characters. -/
def Report.head : Report → Bytes
  | .overspend _ _ => lit "trying to spe"
  | .mismatch _ _ => lit "account type "
  | .sender _ _ => lit "invalid for s"
  | .recipientBasic _ | .recipientType _ _ => lit "invalid for r"
  | .pruneMissing _ | .pruneAltered _ | .pruneEarly _ => lit "invalid prune"

theorem text_head (r : Report) : r.text.take 13 = r.head := by
  cases r <;> simp only [Report.text, Report.head, senderText, recipientText, pruneText, List.append_assoc] <;>
    rw [take_lit (by decide)] <;> decide

/-- C145. The text of an error of Push determines which error it is and all its data: amounts, types, address. -/
theorem C145_text_determines (r r' : Report) (h : r.Ok) (h' : r'.Ok) (e : r.text = r'.text) : r = r' := by
  have hh : r.head = r'.head := by rw [← text_head, ← text_head, e]
  have digit10 : (2 : Nat) ≤ 10 ∧ 10 ≤ 16 := by omega
  cases r <;> cases r' <;>
    first
    | exact absurd hh (by simp only [Report.head]; decide)
    | skip
  case overspend.overspend a s a' s' =>
    simp only [Report.text, List.append_assoc] at e
    obtain ⟨h1, h2⟩ := two_nums (x := 32) (l := lit "but only has ") (by decide) (List.append_cancel_left e)
    rw [UInt64.toNat_inj.mp h1, UInt64.toNat_inj.mp h2]
  case mismatch.mismatch x g x' g' =>
    simp only [Report.text, List.append_assoc] at e
    obtain ⟨h1, h2⟩ := two_nums (x := 32) (l := lit "want ") (by decide) (List.append_cancel_left e)
    rw [UInt8.toNat_inj.mp h1, UInt8.toNat_inj.mp h2]
  case sender.sender a i a' i' => obtain ⟨rfl, rfl⟩ := senderText_inj h h' e; rfl
  case recipientBasic.recipientBasic a a' => obtain ⟨rfl, _⟩ := recipientText_inj h h' e; rfl
  case recipientType.recipientType a t a' t' =>
    obtain ⟨rfl, e2⟩ := recipientText_inj h h' e
    rw [UInt8.toNat_inj.mp (numText_inj digit10.1 digit10.2 (List.append_cancel_left e2))]
  case recipientBasic.recipientType a a' t' =>
    have := congrArg (List.take 1) (recipientText_inj h h' e).2
    rw [List.take_append_of_le_length (by decide)] at this
    exact absurd this (by decide)
  case recipientType.recipientBasic a t a' =>
    have := congrArg (List.take 1) (recipientText_inj h h' e).2
    rw [List.take_append_of_le_length (by decide)] at this
    exact absurd this (by decide)
  all_goals
    obtain ⟨rfl, e2⟩ := pruneText_inj h h' e
    first
    | rfl
    | exact absurd e2 (by decide)

/-- C145. An overspend error shows both amounts, in decimal digits, in this order. -/
theorem C145_overspend (available spend : UInt64) : ∃ s a : Bytes,
    (Report.overspend available spend).text = lit "trying to spend " ++ s ++ lit " but only has " ++ a ∧
    readNum 10 s = spend.toNat ∧ readNum 10 a = available.toNat ∧ ∀ c ∈ s ++ a, 48 ≤ c.toNat ∧ c.toNat ≤ 57 := by
  refine ⟨_, _, rfl, (numText_ok (by omega) (by omega) _).2, (numText_ok (by omega) (by omega) _).2, ?_⟩
  intro c hc
  rcases List.mem_append.mp hc with hc | hc
  · exact decimal _ c hc
  · exact decimal _ c hc
where
  decimal (n : Nat) : ∀ c ∈ numText 10 n, 48 ≤ c.toNat ∧ c.toNat ≤ 57 := by
    have key : ∀ d < 10, 48 ≤ (digitText d).toNat ∧ (digitText d).toNat ≤ 57 := by decide
    induction n using Nat.strongRecOn with
    | ind n ih =>
      intro c hc
      rw [numText] at hc
      split at hc
      · rw [List.mem_singleton] at hc; rw [hc]; exact key n (by omega)
      · rw [List.mem_append, List.mem_singleton] at hc
        rcases hc with hc | hc
        · exact ih _ (Nat.div_lt_self (by omega) (by omega)) c hc
        · rw [hc]; exact key _ (Nat.mod_lt _ (by omega))

/-- C145. A type mismatch shows the type found and the type declared, in this order. -/
theorem C145_mismatch (expected got : UInt8) : ∃ s a : Bytes,
    (Report.mismatch expected got).text = lit "account type mismatch: got " ++ s ++ lit " want " ++ a ∧
    readNum 10 s = got.toNat ∧ readNum 10 a = expected.toNat ∧ ∀ c ∈ s ++ a, 48 ≤ c.toNat ∧ c.toNat ≤ 57 := by
  refine ⟨_, _, rfl, (numText_ok (by omega) (by omega) _).2, (numText_ok (by omega) (by omega) _).2, ?_⟩
  intro c hc
  rcases List.mem_append.mp hc with hc | hc
  · exact C145_overspend.decimal _ c hc
  · exact C145_overspend.decimal _ c hc

theorem hexText_read : ∀ (a : Bytes) (i : Nat) (x : UInt8), a[i]? = some x →
    readNum 16 (((hexText a).drop (2 * i)).take 2) = x.toNat ∧ ∀ c ∈ ((hexText a).drop (2 * i)).take 2, IsDigit c
  | [], i, x, h => by simp at h
  | b :: a, 0, x, h => by
    simp only [List.getElem?_cons_zero, Option.some.injEq] at h
    subst h
    have hb := b.toNat_lt
    have h1 := digit_ok (b.toNat / 16) (by omega)
    have h2 := digit_ok (b.toNat % 16) (by omega)
    simp only [hexText, List.flatMap_cons, Nat.mul_zero, List.drop_zero, List.cons_append, List.nil_append, List.take_succ_cons,
      List.take_zero, readNum, List.foldl_cons, List.foldl_nil, h1.2, h2.2]
    refine ⟨by omega, ?_⟩
    intro c hc
    simp only [List.mem_cons, List.not_mem_nil, or_false] at hc
    rcases hc with rfl | rfl
    · exact h1.1
    · exact h2.1
  | b :: a, i + 1, x, h => by
    simp only [List.getElem?_cons_succ] at h
    have := hexText_read a i x h
    have e : (hexText (b :: a)).drop (2 * (i + 1)) = (hexText a).drop (2 * i) := by
      rw [show 2 * (i + 1) = 2 * i + 1 + 1 from by omega]
      simp only [hexText, List.flatMap_cons, List.cons_append, List.nil_append, List.drop_succ_cons]
    rw [e]
    exact this

/-- C145. The other errors show the address in hexadecimal, two digits for every byte, behind an ampersand. -/
theorem C145_hex_address (a inner : Bytes) (ha : a.length = 20) : ∃ s : Bytes,
    recipientText a inner = lit "invalid for recipient &" ++ s ++ lit ": " ++ inner ∧
    senderText a inner = lit "invalid for sender &" ++ s ++ lit ": " ++ inner ∧ s.length = 40 ∧
    ∀ (i : Nat) (x : UInt8), a[i]? = some x →
      readNum 16 ((s.drop (2 * i)).take 2) = x.toNat ∧ ∀ c ∈ (s.drop (2 * i)).take 2, IsDigit c :=
  ⟨hexText a, rfl, rfl, by rw [hexText_length, ha], hexText_read a⟩

/-- C145. A prune error contains the address as people write it: what Decode reads. -/
theorem C145_prune_address (a inner : Bytes) (ha : a.length = 20) : ∃ s : Bytes,
    pruneText a inner = lit "invalid prune of account " ++ s ++ lit ": " ++ inner ∧ s.length = 44 ∧ decode s = .ok a := by
  obtain ⟨_, _, _, _, l, _⟩ := Address.C16_format a ha
  exact ⟨encode a, rfl, l, Address.C15_decode_encode a ha⟩

/-- C145. The texts of unknown message errors are different for different types. -/
theorem C145_unknown_determines (t t' : UInt64) (e : unknownMessageText t = unknownMessageText t') : t = t' := by
  have e := List.append_cancel_left e
  have hn : ∀ n s, numText 16 n ≠ lit "-" ++ s := by
    intro n s h
    have := (numText_ok (base := 16) (by omega) (by omega) n).1 45 (by rw [h]; exact List.mem_append_left _ (by decide))
    exact absurd this (by decide)
  have h1 := t.toNat_lt
  have h2 := t'.toNat_lt
  split at e <;> split at e
  · exact UInt64.toNat_inj.mp (numText_inj (by omega) (by omega) e)
  · exact absurd e (hn _ _)
  · exact absurd e.symm (hn _ _)
  · have := numText_inj (by omega) (by omega) (List.append_cancel_left e)
    exact UInt64.toNat_inj.mp (by omega)

/-- C145. Below 2^63 the text shows the message type in hexadecimal. -/
theorem C145_unknown_partial (t : UInt64) (h : t.toNat < 2 ^ 63) : ∃ s : Bytes,
    unknownMessageText t = lit "unknown message type: 0x" ++ s ∧ (∀ c ∈ s, IsDigit c) ∧ readNum 16 s = t.toNat := by
  refine ⟨numText 16 t.toNat, ?_, numText_ok (by omega) (by omega) _⟩
  unfold unknownMessageText
  rw [if_pos h]

/-- C145 is violated for every type from 2^63 on, a number that comes from the network: the text has a minus sign and
another number. -/
theorem C145_unknown_violated (t : UInt64) (h : 2 ^ 63 ≤ t.toNat) : ∃ s : Bytes,
    unknownMessageText t = lit "unknown message type: 0x-" ++ s ∧ (∀ c ∈ s, IsDigit c) ∧ readNum 16 s = 2 ^ 64 - t.toNat := by
  refine ⟨numText 16 (2 ^ 64 - t.toNat), ?_, numText_ok (by omega) (by omega) _⟩
  unfold unknownMessageText
  rw [if_neg (by omega), ← List.append_assoc]
  rfl

example : unknownMessageText 0xfffffffffffffffe = lit "unknown message type: 0x-2" := by decide +kernel
example : unknownMessageText 0x2a = lit "unknown message type: 0x2a" := by decide +kernel
example : (Report.mismatch 1 2).text = lit "account type mismatch: got 2 want 1" := by decide +kernel
example : (Report.recipientType (List.replicate 20 0xab) 77).text =
  lit "invalid for recipient &abababababababababababababababababababab: invalid recipient type: 77" := by decide +kernel

/-- The report in an error of Push; `rt` is the type that the recipient was to become. -/
def Report.ofErr (rt : UInt8) : Err → Option Report
  | .overspend av sp => some (.overspend av sp)
  | .typeMismatch ex got => some (.mismatch ex got)
  | .invalidForRecipient a => some (if rt = 0 then .recipientBasic a.val else .recipientType a.val rt)
  | .pruneMissing a => some (.pruneMissing a.val)
  | .pruneAltered a => some (.pruneAltered a.val)
  | .pruneEarly a => some (.pruneEarly a.val)
  | _ => none

/-- C145, for the errors of the model: two errors of Push that carry data and have the same text are the same error. -/
theorem C145_errors (rt rt' : UInt8) (e e' : Err) (r r' : Report) (h : Report.ofErr rt e = some r)
    (h' : Report.ofErr rt' e' = some r') (ht : r.text = r'.text) : e = e' := by
  have ok : ∀ (rt : UInt8) (e : Err) (r : Report), Report.ofErr rt e = some r → r.Ok := by
    intro rt e r h
    cases e <;> simp only [Report.ofErr, Option.some.injEq, reduceCtorEq] at h
    case invalidForRecipient a => subst h; split <;> exact a.property
    case pruneMissing a => subst h; exact a.property
    case pruneAltered a => subst h; exact a.property
    case pruneEarly a => subst h; exact a.property
    all_goals subst h; trivial
  obtain rfl := C145_text_determines r r' (ok _ _ _ h) (ok _ _ _ h') ht
  cases e <;> simp only [Report.ofErr, Option.some.injEq, reduceCtorEq] at h <;>
    cases e' <;> simp only [Report.ofErr, Option.some.injEq, reduceCtorEq] at h' <;>
    subst h <;> (try split at h') <;> (try split at h') <;>
    simp_all [Report.mismatch.injEq, Subtype.ext_iff]

end Nimiq.Accounts
