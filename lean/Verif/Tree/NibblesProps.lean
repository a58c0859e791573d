import Verif.Tree.Nibbles
/-!
# Properties C08–C10: nibbles
-/
namespace Nimiq.Tree

theorem u8_all {P : UInt8 → Prop} (h : ∀ n : Fin 256, P (UInt8.ofNat n.val)) (c : UInt8) : P c := by
  have := h ⟨c.toNat, c.toNat_lt⟩
  simpa using this

theorem toKeyLoop_keyToNibbles (k : Bytes) : toKeyLoop (keyToNibbles k) = k := by
  induction k with
  | nil => rfl
  | cons b bs ih =>
    have : ((b >>> 4) <<< 4) ||| (b &&& 0xF) = b :=
      u8_all (P := fun b => ((b >>> 4) <<< 4) ||| (b &&& 0xF) = b) (by decide +kernel) b
    simp [keyToNibbles, toKeyLoop, ih, this]

theorem keyToNibbles_length (k : Bytes) : (keyToNibbles k).length = 2 * k.length := by
  induction k with
  | nil => rfl
  | cons b bs ih => simp [keyToNibbles, ih]; omega

/-- **C08**: `ToKey` inverts `KeyToNibbles`. -/
theorem C08_toKey_keyToNibbles (k : Bytes) (hk : k.length = 20) : toKey (keyToNibbles k) = .ok k := by
  unfold toKey
  rw [if_neg (by rw [keyToNibbles_length]; omega), toKeyLoop_keyToNibbles]

example : toKey (keyToNibbles (List.replicate 20 0xA7)) = .ok (List.replicate 20 0xA7) := C08_toKey_keyToNibbles _ rfl

/-- **C08**: 40 nibbles, each below 16, high nibble first. -/
theorem C08_nibbles (k : Bytes) (hk : k.length = 20) :
    (keyToNibbles k).length = 40 ∧ (∀ n ∈ keyToNibbles k, n.toNat < 16) ∧
    (∀ i (hi : i < 20), (keyToNibbles k)[2*i]? = (k[i]?).map (fun b => UInt8.ofNat (b.toNat / 16)) ∧
      (keyToNibbles k)[2*i+1]? = (k[i]?).map (fun b => UInt8.ofNat (b.toNat % 16))) := by
  have e1 : ∀ b : UInt8, b >>> 4 = UInt8.ofNat (b.toNat / 16) :=
    u8_all (P := fun b => b >>> 4 = UInt8.ofNat (b.toNat / 16)) (by decide +kernel)
  have e2 : ∀ b : UInt8, b &&& 0xF = UInt8.ofNat (b.toNat % 16) :=
    u8_all (P := fun b => b &&& 0xF = UInt8.ofNat (b.toNat % 16)) (by decide +kernel)
  refine ⟨by rw [keyToNibbles_length]; omega, ?_, ?_⟩
  · clear hk
    induction k with
    | nil => simp [keyToNibbles]
    | cons b bs ih =>
      intro n hn
      simp only [keyToNibbles, List.mem_cons] at hn
      have := b.toNat_lt
      rcases hn with rfl | rfl | hn
      · rw [e1, UInt8.toNat_ofNat']; omega
      · rw [e2, UInt8.toNat_ofNat']; omega
      · exact ih n hn
  · intro i _
    clear hk
    induction k generalizing i with
    | nil => simp [keyToNibbles]
    | cons b bs ih =>
      cases i with
      | zero => simp [keyToNibbles, e1, e2]
      | succ i =>
        rw [show 2 * (i+1) = 2*i + 1 + 1 by omega]
        simp only [keyToNibbles, List.getElem?_cons_succ]
        by_cases hi : i < 20
        · exact ih i hi
        · exact ih i (by omega)

example : (keyToNibbles (List.replicate 20 0xA7)).length = 40 := (C08_nibbles _ rfl).1

/-- **C08**: two keys with the same nibbles are equal, and every list of 40 nibbles is the expansion of a key. -/
theorem C08_bijection (nbs : Bytes) (hl : nbs.length = 40) (hn : ∀ n ∈ nbs, n.toNat < 16) :
    ∃ k, k.length = 20 ∧ toKey nbs = .ok k ∧ keyToNibbles k = nbs := by
  have gen : ∀ m (nbs : Bytes), nbs.length = 2 * m → (∀ n ∈ nbs, n.toNat < 16) →
      (toKeyLoop nbs).length = m ∧ keyToNibbles (toKeyLoop nbs) = nbs := by
    intro m
    induction m with
    | zero => intro nbs h _; have := List.length_eq_zero_iff.mp h; subst this; exact ⟨rfl, rfl⟩
    | succ m ih =>
      intro nbs h hn
      match nbs, h with
      | a :: b :: rest, h =>
        obtain ⟨h1, h2⟩ := ih rest (by simp at h; omega) (fun n hx => hn n (by simp [hx]))
        have ha := hn a (by simp)
        have hb := hn b (by simp)
        have key : ∀ x y : Fin 16, (((UInt8.ofNat x.val <<< 4) ||| UInt8.ofNat y.val) >>> 4 = UInt8.ofNat x.val) ∧
            (((UInt8.ofNat x.val <<< 4) ||| UInt8.ofNat y.val) &&& 0xF = UInt8.ofNat y.val) := by decide +kernel
        have := key ⟨a.toNat, ha⟩ ⟨b.toNat, hb⟩
        simp only [UInt8.ofNat_toNat] at this
        simp [toKeyLoop, keyToNibbles, h1, h2, this]
      | [], h => simp at h
      | [_], h => simp at h; omega
  obtain ⟨h1, h2⟩ := gen 20 nbs hl hn
  exact ⟨_, h1, by simp [toKey, hl], h2⟩

example : ∃ k, k.length = 20 ∧ toKey (List.replicate 40 9) = .ok k ∧ keyToNibbles k = List.replicate 40 9 :=
  C08_bijection _ rfl (by simp)

/-- **C08**: `ToKey` panics exactly on lists whose length is not 40. -/
theorem C08_toKey_panics_iff (nbs : Bytes) : toKey nbs = .panic ↔ nbs.length ≠ 40 := by
  unfold toKey; split <;> simp_all

/-- **C08**: on nibbles `HexBytes` is the lower-case hexadecimal notation, on anything else it panics. -/
theorem C08_hexBytes (nbs : Bytes) :
    hexBytes nbs = if ∀ n ∈ nbs, n.toNat < 16 then
        .ok (nbs.map fun n => UInt8.ofNat ("0123456789abcdef".toList.getD n.toNat ' ').toNat) else .panic := by
  induction nbs with
  | nil => rfl
  | cons n nbs ih =>
    have key : ∀ m : Fin 16, hexTable[m.val]? = some (UInt8.ofNat ("0123456789abcdef".toList.getD m.val ' ').toNat) := by
      decide +kernel
    by_cases h : n.toNat < 16
    · have hk := key ⟨n.toNat, h⟩
      simp only at hk
      simp only [hexBytes, hk, List.mem_cons, forall_eq_or_imp, h, true_and, List.map_cons]
      by_cases h2 : ∀ m ∈ nbs, m.toNat < 16
      · rw [ih, if_pos h2, if_pos h2]
      · rw [ih, if_neg h2, if_neg h2]
    · have : hexTable[n.toNat]? = none := by
        apply List.getElem?_eq_none
        simp [hexTable]; omega
      simp only [hexBytes, this, List.mem_cons, forall_eq_or_imp, h, false_and, if_false]

/-- **C09**: `PrefixOf` is the prefix relation. -/
theorem C09_prefixOf_iff {α : Type} [DecidableEq α] (a b : List α) : prefixOf a b = true ↔ ∃ c, b = a ++ c := by
  induction a generalizing b with
  | nil => simp [prefixOf]
  | cons x a ih =>
    cases b with
    | nil => simp [prefixOf]
    | cons y b =>
      simp only [prefixOf, List.cons_append, List.cons.injEq]
      split
      · rename_i h; subst h; simp [ih]
      · rename_i h
        simp only [Bool.false_eq_true, false_iff]
        rintro ⟨c, h1, _⟩; exact h h1.symm

/-- **C09**: `CommonPrefix` is the longest common prefix. -/
theorem C09_commonPrefix {α : Type} [DecidableEq α] (a b : List α) :
    (∃ c, a = commonPrefix a b ++ c) ∧ (∃ c, b = commonPrefix a b ++ c) ∧
    (∀ p, (∃ c, a = p ++ c) → (∃ c, b = p ++ c) → ∃ c, commonPrefix a b = p ++ c) := by
  induction a generalizing b with
  | nil =>
    refine ⟨⟨[], rfl⟩, ⟨b, rfl⟩, ?_⟩
    rintro p ⟨c, hc⟩ _
    have : p = [] := by simpa using (List.append_eq_nil_iff.mp hc.symm).1
    subst this; exact ⟨_, rfl⟩
  | cons x a ih =>
    cases b with
    | nil =>
      refine ⟨⟨_, rfl⟩, ⟨[], rfl⟩, ?_⟩
      rintro p _ ⟨c, hc⟩
      have : p = [] := by simpa using (List.append_eq_nil_iff.mp hc.symm).1
      subst this; exact ⟨_, rfl⟩
    | cons y b =>
      obtain ⟨⟨c1, h1⟩, ⟨c2, h2⟩, h3⟩ := ih b
      by_cases h : x = y
      · subst h
        simp only [commonPrefix, if_true]
        refine ⟨⟨c1, by rw [List.cons_append, ← h1]⟩, ⟨c2, by rw [List.cons_append, ← h2]⟩, ?_⟩
        rintro p ⟨d1, e1⟩ ⟨d2, e2⟩
        cases p with
        | nil => exact ⟨_, rfl⟩
        | cons z p =>
          simp only [List.cons_append, List.cons.injEq] at e1 e2
          obtain ⟨c, hc⟩ := h3 p ⟨d1, e1.2⟩ ⟨d2, e2.2⟩
          exact ⟨c, by rw [hc, e1.1]; rfl⟩
      · simp only [commonPrefix, if_neg h]
        refine ⟨⟨_, rfl⟩, ⟨_, rfl⟩, ?_⟩
        rintro p ⟨d1, e1⟩ ⟨d2, e2⟩
        cases p with
        | nil => exact ⟨[], rfl⟩
        | cons z p =>
          simp only [List.cons_append, List.cons.injEq] at e1 e2
          exact absurd (e1.1.trans e2.1.symm) h

example : commonPrefix [1, 2, 3] [1, 2, 4, 5] = [1, 2] ∧ prefixOf [1, 2] [1, 2, 3] = true := by decide

/-- Specification of C10: pack two nibbles per byte, high nibble first, a missing last nibble as 0. -/
def pack : Bytes → Bytes
  | [] => []
  | [h] => [h <<< 4]
  | h :: l :: rest => ((h <<< 4) ||| (l &&& 0xF)) :: pack rest

theorem compressLoop_panics (ns : Bytes) : ∀ (i : Nat) (buf : Bytes), ns ≠ [] → buf.length ≤ (i + ns.length - 1) / 2 →
    compressLoop i ns buf = .panic := by
  induction ns with
  | nil => intro _ _ h; exact absurd rfl h
  | cons n ns ih =>
    intro i buf _ hl
    simp only [List.length_cons] at hl
    unfold compressLoop
    split
    · rename_i hlt
      have hne : ns ≠ [] := by
        intro h; subst h; simp at hl; omega
      split
      · exact ih (i+1) _ hne (by simp; omega)
      · exact ih (i+1) _ hne (by simp; omega)
    · rfl

/-- **C10** (violated): `Compress` panics on every non-empty list, because the buffer is one byte short; only the empty
list is handled as specified. -/
theorem C10_compress_violated (nbs : Bytes) : (nbs ≠ [] → compress nbs = .panic) ∧ compress [] = .ok (pack []) := by
  refine ⟨?_, rfl⟩
  intro h
  unfold compress
  apply compressLoop_panics _ _ _ h
  simp

theorem compressLoop_ok (ns : Bytes) : ∀ (i : Nat) (buf : Bytes), i % 2 = 0 → buf.length = (i + ns.length + 1) / 2 →
    compressLoop i ns buf = .ok (buf.take (i/2) ++ pack ns) := by
  induction ns using pack.induct with
  | case1 =>
    intro i buf hi hl
    simp only [compressLoop, pack, List.append_nil]
    rw [List.take_of_length_le (by simp at hl; omega)]
  | case2 n =>
    intro i buf hi hl
    simp only [List.length_singleton] at hl
    simp only [compressLoop, pack]
    rw [if_pos (by omega), if_pos hi]
    congr 1
    rw [List.set_eq_take_append_cons_drop, if_pos (by omega), List.drop_of_length_le (by omega)]
  | case3 h l rest ih =>
    intro i buf hi hl
    simp only [List.length_cons] at hl
    have hlen : i / 2 < buf.length := by omega
    have hd : (i+1)/2 = i/2 := by omega
    simp only [compressLoop, pack]
    rw [if_pos hlen, if_pos hi, hd, if_pos (by simpa using hlen), if_neg (by omega)]
    rw [ih (i+1+1) _ (by omega) (by simp; omega)]
    congr 1
    rw [show (i+1+1)/2 = i/2 + 1 by omega]
    simp only [List.set_set]
    have e : (buf.set (i/2) (h <<< 4)).getD (i/2) 0 = h <<< 4 := by simp [hlen]
    rw [e, List.take_add_one]
    simp [hlen, List.take_set_of_le]

/-- What `Compress` would compute with a large enough buffer (the obvious repair `(len+1)/2`). -/
theorem C10_compress_repaired_partial (nbs : Bytes) :
    compressLoop 0 nbs (List.replicate ((nbs.length + 1) / 2) 0) = .ok (pack nbs) := by
  rw [compressLoop_ok nbs 0 _ rfl (by simp)]
  simp

end Nimiq.Tree
