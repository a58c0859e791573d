import Verif.Tree.NibblesProps
import Verif.Tree.Model
/-!
# C126: `wire/nibbles.go`

Package wire has its own type `Nibbles`.  Here its methods are modelled statement by statement: buffers of a fixed length that
are assigned at an index, and every index expression panics outside of its range.  C126 says that the results are those of the
type of the same name in package tree (`Tree/Nibbles.lean`, where the loops are recursion over the lists), so that C08, C09 and
C10 hold of both.
-/
namespace Nimiq.Wire.Nibbles

/-- `s[i]` -/
def at? (s : Bytes) (i : Nat) : Out UInt8 :=
  match s[i]? with
  | some b => .ok b
  | none => .panic

/-- `buf[i] = v` -/
def store (buf : Bytes) (i : Nat) (v : UInt8) : Out Bytes := if i < buf.length then .ok (buf.set i v) else .panic

/-- nibbles.go:7 `hexTable` -/
def hexTable : Bytes := "0123456789abcdef".toList.map fun c => UInt8.ofNat c.toNat

/-- nibbles.go:12-15: from index `i`, with `k` iterations to go -/
def keyToNibblesLoop (key : Bytes) : (k i : Nat) → Bytes → Out Bytes
  | 0, _, nb => .ok nb
  | k + 1, i, nb => do
    let b ← at? key i
    let nb ← store nb (2 * i) (b >>> 4)
    let nb ← store nb (2 * i + 1) (b &&& 0xF)
    keyToNibblesLoop key k (i + 1) nb

/-- nibbles.go:10-17 `KeyToNibbles` -/
def keyToNibbles (key : Addr) : Out Bytes := keyToNibblesLoop key.val 20 0 (List.replicate 40 0)

/-- nibbles.go:25-27: `for i := 0; i < 40; i += 2`, with `k` iterations to go -/
def toKeyLoop (nbs : Bytes) : (k i : Nat) → Bytes → Out Bytes
  | 0, _, key => .ok key
  | k + 1, i, key =>
    if i < 40 then do
      let hi ← at? nbs i
      let lo ← at? nbs (i + 1)
      let key ← store key (i / 2) ((hi <<< 4) ||| lo)
      toKeyLoop nbs k (i + 2) key
    else .ok key

/-- nibbles.go:21-29 `ToKey` -/
def toKey (nbs : Bytes) : Out Bytes :=
  if nbs.length ≠ 40 then .panic else toKeyLoop nbs 41 0 (List.replicate 20 0)

/-- nibbles.go:33-39 -/
def compressLoop (nbs : Bytes) : (k i : Nat) → Bytes → Out Bytes
  | 0, _, buf => .ok buf
  | k + 1, i, buf => do
    let n ← at? nbs i
    if i % 2 = 0 then
      let buf ← store buf (i / 2) (n <<< 4)
      compressLoop nbs k (i + 1) buf
    else
      let old ← at? buf (i / 2)
      let buf ← store buf (i / 2) (old ||| (n &&& 0xF))
      compressLoop nbs k (i + 1) buf

/-- nibbles.go:31-41 `Compress`; `int` division truncates towards zero, so -1/2 is 0 -/
def compress (nbs : Bytes) : Out Bytes :=
  compressLoop nbs nbs.length 0 (List.replicate (((nbs.length : Int) - 1).tdiv 2).toNat 0)

/-- nibbles.go:46-48 -/
def hexBytesLoop (nbs : Bytes) : (k i : Nat) → Bytes → Out Bytes
  | 0, _, buf => .ok buf
  | k + 1, i, buf => do
    let nb ← at? nbs i
    let c ← at? hexTable nb.toNat
    let buf ← store buf i c
    hexBytesLoop nbs k (i + 1) buf

/-- nibbles.go:44-50 `HexBytes`, and :52-54 `String` -/
def hexBytes (nbs : Bytes) : Out Bytes := hexBytesLoop nbs nbs.length 0 (List.replicate nbs.length 0)

/-- nibbles.go:57-67: the result is a slice of the receiver, given by its length; nil has length 0 -/
def commonPrefixLoop (nbs onbs : Bytes) : (k i common : Nat) → Out Nat
  | 0, _, common => .ok common
  | k + 1, i, common =>
    if i ≥ onbs.length then .ok common
    else do
      let a ← at? nbs i
      let b ← at? onbs i
      if a = b then commonPrefixLoop nbs onbs k (i + 1) (i + 1) else .ok common

/-- nibbles.go:56-69 `CommonPrefix` -/
def commonPrefix (nbs onbs : Bytes) : Out Bytes := do
  let l ← commonPrefixLoop nbs onbs nbs.length 0 0
  return nbs.take l

/-- nibbles.go:75-79 -/
def prefixOfLoop (nbs onbs : Bytes) : (k i : Nat) → Out Bool
  | 0, _ => .ok true
  | k + 1, i => do
    let a ← at? nbs i
    let b ← at? onbs i
    if a ≠ b then return false
    prefixOfLoop nbs onbs k (i + 1)

/-- nibbles.go:71-81 `PrefixOf` -/
def prefixOf (nbs onbs : Bytes) : Out Bool :=
  if nbs.length > onbs.length then .ok false else prefixOfLoop nbs onbs nbs.length 0

/-! ## Proofs -/

theorem at?_append (pre : Bytes) (b : UInt8) (rest : Bytes) : at? (pre ++ b :: rest) pre.length = .ok b := by
  simp [at?]

theorem store_append (pre : Bytes) (b v : UInt8) (rest : Bytes) :
    store (pre ++ b :: rest) pre.length v = .ok (pre ++ v :: rest) := by
  simp [store]

theorem keyToNibblesLoop_eq : ∀ (todo done : Bytes),
    keyToNibblesLoop (done ++ todo) todo.length done.length (Tree.keyToNibbles done ++ List.replicate (2 * todo.length) 0) =
      .ok (Tree.keyToNibbles (done ++ todo)) := by
  intro todo
  induction todo with
  | nil => intro done; simp [keyToNibblesLoop]
  | cons b bs ih =>
    intro done
    have hl := Tree.keyToNibbles_length done
    have hrep : List.replicate (2 * (b :: bs).length) (0 : UInt8) = 0 :: 0 :: List.replicate (2 * bs.length) 0 := by
      rw [List.length_cons, show 2 * (bs.length + 1) = 2 * bs.length + 1 + 1 by omega]; rfl
    have happ : Tree.keyToNibbles (done ++ [b]) = Tree.keyToNibbles done ++ [b >>> 4, b &&& 0xF] := by
      clear ih hl
      induction done with
      | nil => rfl
      | cons x xs ih => simp [Tree.keyToNibbles, ih]
    show (do
      let b ← at? (done ++ b :: bs) done.length
      let nb ← store _ (2 * done.length) (b >>> 4)
      let nb ← store nb (2 * done.length + 1) (b &&& 0xF)
      keyToNibblesLoop (done ++ _ :: bs) bs.length (done.length + 1) nb) = _
    rw [at?_append, hrep]
    simp only [Out.bind_ok]
    rw [← hl, store_append]
    simp only [Out.bind_ok]
    have := store_append (Tree.keyToNibbles done ++ [b >>> 4]) 0 (b &&& 0xF) (List.replicate (2 * bs.length) 0)
    simp only [List.append_assoc, List.cons_append, List.nil_append, List.length_append, List.length_cons, List.length_nil,
      Nat.zero_add] at this
    rw [this]
    simp only [Out.bind_ok]
    have hi := ih (done ++ [b])
    rw [happ] at hi
    simp only [List.append_assoc, List.cons_append, List.nil_append, List.length_append, List.length_cons, List.length_nil,
      Nat.zero_add] at hi
    exact hi

theorem toKeyLoop_eq : ∀ (k m j : Nat) (done todo : Bytes), done.length = 2 * m → todo.length = 2 * k → m + k = 20 →
    toKeyLoop (done ++ todo) (k + 1 + j) (2 * m) (Tree.toKeyLoop done ++ List.replicate k 0) =
      .ok (Tree.toKeyLoop done ++ Tree.toKeyLoop todo) := by
  intro k
  induction k with
  | zero =>
    intro m j done todo hd ht hm
    have : todo = [] := List.length_eq_zero_iff.mp (by omega)
    subst this
    rw [show 0 + 1 + j = j + 1 by omega, toKeyLoop, if_neg (by omega)]
    simp [Tree.toKeyLoop]
  | succ k ih =>
    intro m j done todo hd ht hm
    match todo, ht with
    | hi :: lo :: todo, ht =>
      have ht' : todo.length = 2 * k := by simp only [List.length_cons] at ht; omega
      have happ : ∀ (m : Nat) (done : Bytes), done.length = 2 * m →
          Tree.toKeyLoop (done ++ [hi, lo]) = Tree.toKeyLoop done ++ [(hi <<< 4) ||| lo] ∧ (Tree.toKeyLoop done).length = m := by
        intro m
        induction m with
        | zero =>
          intro done hd
          have : done = [] := List.length_eq_zero_iff.mp (by omega)
          subst this
          exact ⟨rfl, rfl⟩
        | succ m ih =>
          intro done hd
          match done, hd with
          | x :: y :: done, hd =>
            obtain ⟨h1, h2⟩ := ih done (by simp only [List.length_cons] at hd; omega)
            simp [Tree.toKeyLoop, h1, h2]
          | [], hd => simp at hd
          | [_], hd => simp at hd; omega
      obtain ⟨h1, h2⟩ := happ m done hd
      rw [show k + 1 + 1 + j = (k + 1 + j) + 1 by omega, toKeyLoop, if_pos (by omega)]
      have e1 : at? (done ++ hi :: lo :: todo) (2 * m) = .ok hi := by rw [← hd]; exact at?_append _ _ _
      have e2 : at? (done ++ hi :: lo :: todo) (2 * m + 1) = .ok lo := by
        have := at?_append (done ++ [hi]) lo todo
        simp only [List.append_assoc, List.cons_append, List.nil_append, List.length_append, List.length_cons, List.length_nil,
          Nat.zero_add] at this
        rw [← hd]; exact this
      have e3 : store (Tree.toKeyLoop done ++ List.replicate (k + 1) 0) (2 * m / 2) ((hi <<< 4) ||| lo) =
          .ok (Tree.toKeyLoop (done ++ [hi, lo]) ++ List.replicate k 0) := by
        have := store_append (Tree.toKeyLoop done) 0 ((hi <<< 4) ||| lo) (List.replicate k 0)
        rw [h2] at this
        rw [show 2 * m / 2 = m by omega, List.replicate_succ, this, h1]
        simp
      simp only [e1, e2, e3, Out.bind_ok]
      have := ih (m + 1) j (done ++ [hi, lo]) todo (by simp; omega) ht' (by omega)
      rw [show 2 * (m + 1) = 2 * m + 2 by omega, List.append_assoc] at this
      rw [List.cons_append, List.cons_append, List.nil_append] at this
      rw [this, h1]
      simp [Tree.toKeyLoop]
    | [], ht => simp at ht
    | [_], ht => simp at ht; omega

theorem compressLoop_eq : ∀ (todo done buf : Bytes),
    compressLoop (done ++ todo) todo.length done.length buf = Tree.compressLoop done.length todo buf := by
  intro todo
  induction todo with
  | nil => intro done buf; rfl
  | cons n ns ih =>
    intro done buf
    have hi : ∀ buf, compressLoop (done ++ n :: ns) ns.length (done.length + 1) buf =
        Tree.compressLoop (done.length + 1) ns buf := by
      intro buf
      have := ih (done ++ [n]) buf
      simpa using this
    rw [List.length_cons, compressLoop, at?_append]
    simp only [Out.bind_ok, Tree.compressLoop, hi]
    by_cases h : done.length / 2 < buf.length
    · rw [if_pos h]
      by_cases h2 : done.length % 2 = 0
      · simp [h2, store, h]
      · simp [h2, store, h, at?, List.getD]
    · rw [if_neg h]
      by_cases h2 : done.length % 2 = 0
      · simp [h2, store, h]
      · have : buf[done.length / 2]? = none := List.getElem?_eq_none (by omega)
        simp [h2, at?, this]

theorem hexTable_eq : hexTable = Tree.hexTable := by decide

theorem hexBytesLoop_eq : ∀ (todo done r : Bytes), r.length = done.length →
    hexBytesLoop (done ++ todo) todo.length done.length (r ++ List.replicate todo.length 0) =
      (match Tree.hexBytes todo with
        | .ok x => .ok (r ++ x)
        | .err e => .err e
        | .panic => .panic) := by
  intro todo
  induction todo with
  | nil => intro done r hr; simp [hexBytesLoop, Tree.hexBytes]
  | cons n ns ih =>
    intro done r hr
    rw [List.length_cons, hexBytesLoop, at?_append]
    simp only [Out.bind_ok, Tree.hexBytes]
    rw [at?, hexTable_eq]
    cases hc : Tree.hexTable[n.toNat]? with
    | none => rfl
    | some c =>
      simp only [Out.bind_ok]
      rw [← hr, List.replicate_succ, store_append]
      simp only [Out.bind_ok]
      have := ih (done ++ [n]) (r ++ [c]) (by simp [hr])
      simp only [List.append_assoc, List.cons_append, List.nil_append, List.length_append, List.length_cons, List.length_nil,
        Nat.zero_add, ← hr] at this
      rw [this]
      cases Tree.hexBytes ns <;> rfl

theorem commonPrefixLoop_eq : ∀ (a b done : Bytes),
    commonPrefixLoop (done ++ a) (done ++ b) a.length done.length done.length =
      .ok (done.length + (Tree.commonPrefix a b).length) := by
  intro a
  induction a with
  | nil => intro b done; rfl
  | cons x a ih =>
    intro b done
    cases b with
    | nil => rw [List.length_cons, commonPrefixLoop, if_pos (by simp)]; rfl
    | cons y b =>
      rw [List.length_cons, commonPrefixLoop, if_neg (by simp), at?_append, at?_append]
      simp only [Out.bind_ok, Tree.commonPrefix]
      by_cases h : x = y
      · subst h
        rw [if_pos rfl, if_pos rfl]
        have := ih b (done ++ [x])
        simp only [List.append_assoc, List.cons_append, List.nil_append, List.length_append, List.length_cons, List.length_nil,
          Nat.zero_add] at this
        rw [this]
        simp only [List.length_cons]
        congr 1
        omega
      · rw [if_neg h, if_neg h]; rfl

theorem commonPrefix_take (a b : Bytes) : a.take (Tree.commonPrefix a b).length = Tree.commonPrefix a b := by
  induction a generalizing b with
  | nil => cases b <;> rfl
  | cons x a ih =>
    cases b with
    | nil => rfl
    | cons y b =>
      unfold Tree.commonPrefix
      by_cases h : x = y
      · rw [if_pos h]; simp [ih b]
      · rw [if_neg h]; rfl

theorem prefixOfLoop_eq : ∀ (a b done done' : Bytes), done.length = done'.length → a.length ≤ b.length →
    prefixOfLoop (done ++ a) (done' ++ b) a.length done.length = .ok (Tree.prefixOf a b) := by
  intro a
  induction a with
  | nil => intro b done done' _ _; rfl
  | cons x a ih =>
    intro b done done' hd hl
    cases b with
    | nil => simp at hl
    | cons y b =>
      rw [List.length_cons, prefixOfLoop, at?_append, hd, at?_append]
      simp only [Out.bind_ok, Tree.prefixOf]
      by_cases h : x = y
      · subst h
        rw [if_pos rfl]
        have := ih b (done ++ [x]) (done' ++ [x]) (by simp [hd]) (by simpa using hl)
        simp only [List.append_assoc, List.cons_append, List.nil_append, List.length_append, List.length_cons, List.length_nil,
          Nat.zero_add, hd] at this
        simpa using this
      · rw [if_neg h]
        simp [h]

theorem prefixOf_long : ∀ (a b : Bytes), a.length > b.length → Tree.prefixOf a b = false := by
  intro a
  induction a with
  | nil => intro b h; simp at h
  | cons x a ih =>
    intro b h
    cases b with
    | nil => rfl
    | cons y b =>
      unfold Tree.prefixOf
      rw [ih b (by simpa using h)]
      split <;> rfl

/-! ## C126 -/

/-- C126. Every method of `wire.Nibbles` has the result of the method of `tree.Nibbles`, panics included. -/
theorem C126_agree (key : Addr) (a b : Bytes) :
    keyToNibbles key = .ok (Tree.keyToNibbles key.val) ∧ toKey a = Tree.toKey a ∧ compress a = Tree.compress a ∧
    hexBytes a = Tree.hexBytes a ∧ commonPrefix a b = .ok (Tree.commonPrefix a b) ∧ prefixOf a b = .ok (Tree.prefixOf a b) := by
  refine ⟨?_, ?_, ?_, ?_, ?_, ?_⟩
  · have := keyToNibblesLoop_eq key.val []
    have hk : key.val.length = 20 := key.property
    rw [hk] at this
    exact this
  · unfold toKey Tree.toKey
    by_cases h : a.length = 40
    · rw [if_neg (by omega), if_neg (by omega)]
      exact toKeyLoop_eq 20 0 20 [] a rfl (by omega) (by omega)
    · rw [if_pos h, if_pos h]
  · unfold compress Tree.compress
    have hlen : (((a.length : Int) - 1).tdiv 2).toNat = (a.length - 1) / 2 := by
      rcases Nat.eq_zero_or_pos a.length with h | h
      · rw [h]; decide
      · rw [show ((a.length : Int) - 1) = ((a.length - 1 : Nat) : Int) by omega]
        rfl
    rw [hlen]
    exact compressLoop_eq a [] _
  · have := hexBytesLoop_eq a [] [] rfl
    unfold hexBytes
    rw [List.nil_append, List.nil_append] at this
    rw [show ([] : Bytes).length = 0 from rfl] at this
    rw [this]
    cases Tree.hexBytes a <;> rfl
  · have := commonPrefixLoop_eq a b []
    unfold commonPrefix
    rw [List.nil_append, List.nil_append] at this
    rw [show ([] : Bytes).length = 0 from rfl] at this
    rw [this]
    simp [commonPrefix_take]
  · unfold prefixOf
    by_cases h : a.length > b.length
    · rw [if_pos h, prefixOf_long a b h]
    · rw [if_neg h]
      exact prefixOfLoop_eq a b [] [] rfl (by omega)

/-- C126, in its own terms: `ToKey` inverts `KeyToNibbles`, which gives 40 nibbles; on nibbles `KeyToNibbles` inverts `ToKey`. -/
theorem C126_keys (key : Addr) (nbs : Bytes) (hn : ∀ n ∈ nbs, n.toNat < 16) :
    (∃ r, keyToNibbles key = .ok r ∧ r.length = 40 ∧ (∀ n ∈ r, n.toNat < 16) ∧ toKey r = .ok key.val) ∧
    (nbs.length ≠ 40 → toKey nbs = .panic) ∧
    (nbs.length = 40 → ∃ k : Addr, toKey nbs = .ok k.val ∧ keyToNibbles k = .ok nbs) := by
  have h := fun b => C126_agree key b []
  have hk : key.val.length = 20 := key.property
  refine ⟨⟨_, (h []).1, (Tree.C08_nibbles _ hk).1, (Tree.C08_nibbles _ hk).2.1, ?_⟩, fun hl => ?_, fun hl => ?_⟩
  · rw [(h _).2.1]; exact Tree.C08_toKey_keyToNibbles _ hk
  · rw [(h _).2.1]; exact (Tree.C08_toKey_panics_iff _).mpr hl
  · obtain ⟨k, h1, h2, h3⟩ := Tree.C08_bijection nbs hl hn
    refine ⟨⟨k, h1⟩, ?_, ?_⟩
    · rw [(h _).2.1]; exact h2
    · rw [(C126_agree ⟨k, h1⟩ [] []).1]; exact congrArg _ h3

/-- C126, `PrefixOf` is the prefix order and `CommonPrefix` the longest common prefix; neither panics, whatever the bytes and
lengths. -/
theorem C126_prefixes (a b : Bytes) :
    (prefixOf a b = .ok true ∨ prefixOf a b = .ok false) ∧ (prefixOf a b = .ok true ↔ ∃ c, b = a ++ c) ∧
    ∃ p, commonPrefix a b = .ok p ∧ (∃ c, a = p ++ c) ∧ (∃ c, b = p ++ c) ∧
      ∀ q, (∃ c, a = q ++ c) → (∃ c, b = q ++ c) → ∃ c, p = q ++ c := by
  obtain ⟨-, -, -, -, h5, h6⟩ := C126_agree ⟨List.replicate 20 0, rfl⟩ a b
  refine ⟨?_, ?_, _, h5, Tree.C09_commonPrefix a b⟩
  · rw [h6]; cases Tree.prefixOf a b <;> simp
  · rw [h6, ← Tree.C09_prefixOf_iff]; simp

example : ∃ k : Addr, toKey (List.replicate 40 9) = .ok k.val ∧ keyToNibbles k = .ok (List.replicate 40 9) :=
  (C126_keys ⟨List.replicate 20 0, rfl⟩ (List.replicate 40 9) (by simp)).2.2 rfl

end Nimiq.Wire.Nibbles
