import Verif.Wire.Codecs
/-!
# Plain types without custom codecs: tree chunks and staking data (C73, C74)
-/
namespace Nimiq.Wire
open Beserial Beserial.Spec

/-- accounts_tree_chunk.go:8-10 `AccountsProof`: Nodes -/
def accountsProofTy : Ty := .struct (.cons tagU16 (.slice .byteSlice) .nil)

/-- accounts_tree_chunk.go:3-6 `AccountsTreeChunk`: Nodes, Proof -/
def accountsTreeChunkTy : Ty := .struct (.cons tagU16 (.slice .byteSlice) (.cons none accountsProofTy .nil))

/-- tx_staking.go:5-9 `StakingTxData`: ValidatorKey, RewardAddress, ProofOfKnowledge -/
def stakingTy : Ty := .struct
  (.cons none (.byteArr 96) (.cons tagOptional (.ptr (.byteArr 20)) (.cons none (.byteArr 48) .nil)))

theorem sliceBytes_marshal (l : List Bytes) (b : Bytes) : marshal (.slice .byteSlice) l b { lenTag := some .u16 } =
    if l = [] then .ok (b ++ putLen .u16 0) else .err .noLenTag := by
  simp only [marshal, Ty.customEnc]
  cases l with
  | nil => rfl
  | cons x xs => rfl

theorem sliceBytes_decode (d : Bytes) (prev l : List Bytes) (r : Bytes)
    (h : decode noLimit (.slice .byteSlice) prev { lenTag := some .u16 } d = .ok l r) : l = [] := by
  rw [decode] at h
  cases hr : readLen { lenTag := some .u16 } d with
  | err e x => rw [hr] at h; cases h
  | panic => rw [hr] at h; cases h
  | ok u d' =>
    rw [hr] at h
    simp only at h
    split at h
    · cases h
    · simp only [noLimit, if_true] at h
      cases u with
      | zero =>
        simp only [List.replicate_zero, decLoop, Res.map, Res.ok.injEq] at h
        exact h.1.symm
      | succ u =>
        rw [List.replicate_succ] at h
        simp only [decLoop] at h
        have : decode noLimit .byteSlice (Ty.zero .byteSlice) {} d' = .err .noLenTag d' := by
          rw [decode]; rfl
        rw [this] at h
        cases h

/-- C73 is false: a tree chunk with any node in it, or in its proof, cannot be encoded, and none is ever decoded. -/
theorem C73_violated (nodes proof : List Bytes) (b d r : Bytes) (prev : accountsTreeChunkTy.Val) :
    (nodes ≠ [] ∨ proof ≠ [] → Marshal b accountsTreeChunkTy (nodes, (proof, ()), ()) = .err .noLenTag) ∧
    (Unmarshal accountsTreeChunkTy prev d = .ok (nodes, (proof, ()), ()) r → nodes = [] ∧ proof = []) := by
  have ht : fieldTags tagU16 = some { lenTag := some .u16 } := fieldTags_u16
  constructor
  · intro h
    simp only [Marshal, accountsTreeChunkTy, accountsProofTy]
    rw [marshal]
    simp only [marshalFields, ht, fieldTags_none]
    rw [sliceBytes_marshal]
    by_cases hn : nodes = []
    · rw [if_pos hn]
      simp only
      rw [marshal]
      simp only [marshalFields, ht, fieldTags_none]
      rw [sliceBytes_marshal, if_neg (h.resolve_left (fun hx => hx hn))]
    · rw [if_neg hn]
  · intro h
    obtain ⟨p1, p2, p3⟩ := prev
    obtain ⟨p2, p4⟩ := p2
    simp only [Unmarshal, accountsTreeChunkTy, accountsProofTy] at h
    rw [decode] at h
    simp only [decodeFields, ht, fieldTags_none] at h
    cases h1 : decode noLimit (.slice .byteSlice) p1 { lenTag := some .u16 } d with
    | err e x => rw [h1] at h; cases h
    | panic => rw [h1] at h; cases h
    | ok l1 d1 =>
      rw [h1] at h
      simp only at h
      rw [decode] at h
      simp only [decodeFields, ht, fieldTags_none] at h
      cases h2 : decode noLimit (.slice .byteSlice) p2 { lenTag := some .u16 } d1 with
      | err e x => rw [h2] at h; cases h
      | panic => rw [h2] at h; cases h
      | ok l2 d2 =>
        rw [h2] at h
        simp only [Res.map, Res.ok.injEq, Prod.mk.injEq] at h
        exact ⟨h.1.1 ▸ sliceBytes_decode d p1 l1 d1 h1, h.1.2.1.1 ▸ sliceBytes_decode d1 p2 l2 d2 h2⟩

/-- C73, the part that works: the empty chunk is four zero bytes in both directions. -/
theorem C73_empty_partial (b rest : Bytes) (prev : accountsTreeChunkTy.Val) :
    Marshal b accountsTreeChunkTy ([], ([], ()), ()) = .ok (b ++ [0, 0, 0, 0]) ∧
    Unmarshal accountsTreeChunkTy prev ([0, 0, 0, 0] ++ rest) = .ok ([], ([], ()), ()) rest := by
  have ht : fieldTags tagU16 = some { lenTag := some .u16 } := fieldTags_u16
  have hr : ∀ d : Bytes, readLen { lenTag := some .u16 } (0 :: 0 :: d) = .ok 0 d := by
    intro d
    have hp : pop LenKind.u16.size (0 :: 0 :: d) = some ([0, 0], d) := by simp [pop, LenKind.size]
    simp only [readLen, hp]
    rfl
  constructor
  · simp only [Marshal, accountsTreeChunkTy, accountsProofTy]
    rw [marshal]
    simp only [marshalFields, ht, fieldTags_none]
    rw [sliceBytes_marshal, if_pos rfl]
    simp only
    rw [marshal]
    simp only [marshalFields, ht]
    rw [sliceBytes_marshal, if_pos rfl]
    have : putLen .u16 0 = [0, 0] := by decide
    simp [this]
  · obtain ⟨p1, ⟨p2, p4⟩, p3⟩ := prev
    have hd : ∀ (p : List Bytes) (d : Bytes), decode noLimit (.slice .byteSlice) p { lenTag := some .u16 } (0 :: 0 :: d) =
        .ok [] d := by
      intro p d
      rw [decode, hr]
      simp [noLimit, decLoop, Res.map]
    simp only [Unmarshal, accountsTreeChunkTy, accountsProofTy]
    rw [decode]
    simp only [decodeFields, ht, fieldTags_none, List.cons_append, List.nil_append]
    rw [hd]
    simp only
    rw [decode]
    simp only [decodeFields, ht]
    rw [hd]
    rfl

/-- What staking data looks like on the wire. -/
def stakingLayout (key : BArr 96) (reward : Option (BArr 20)) (pok : BArr 48) : Bytes :=
  key.val ++ (match reward with | none => [0] | some a => 1 :: a.val) ++ pok.val

/-- C74. Staking data round-trips with and without the optional reward address, and only that layout is accepted. -/
theorem C74_round_trip (key : BArr 96) (reward : Option (BArr 20)) (pok : BArr 48) (b rest : Bytes) (prev : stakingTy.Val) :
    Marshal b stakingTy (key, reward, pok, ()) = .ok (b ++ stakingLayout key reward pok) ∧
    Unmarshal stakingTy prev (stakingLayout key reward pok ++ rest) = .ok (key, reward, pok, ()) rest := by
  have hg : Good stakingTy := by
    simp only [stakingTy, Good, GoodFields, and_true, true_and, isCustom]
  have he : enc stakingTy {} (key, reward, pok, ()) = some (stakingLayout key reward pok) := by
    have ht : fieldTags tagOptional = some { optional := true } := fieldTags_optional
    cases reward <;> simp [stakingTy, enc, encFields, ht, fieldTags_none, stakingLayout, isCustom]
  exact ⟨marshal_spec _ _ _ _ b hg he, decode_spec noLimit (fun _ => rfl) stakingTy {} _ prev _ rest hg he⟩

/-- C74. Only that layout is accepted. -/
theorem C74_canonical (d r : Bytes) (prev : stakingTy.Val) (key : BArr 96) (reward : Option (BArr 20)) (pok : BArr 48)
    (h : Unmarshal stakingTy prev d = .ok (key, reward, pok, ()) r) : d = stakingLayout key reward pok ++ r := by
  have hg : Good stakingTy := by
    simp only [stakingTy, Good, GoodFields, and_true, true_and, isCustom]
  have ht : fieldTags tagOptional = some { optional := true } := fieldTags_optional
  obtain ⟨bs, hbs, hd⟩ := decode_canon noLimit stakingTy {} _ prev d r hg h
  have he : enc stakingTy {} (key, reward, pok, ()) = some (stakingLayout key reward pok) := by
    cases reward <;> simp [stakingTy, enc, encFields, ht, fieldTags_none, stakingLayout, isCustom]
  have := he.symm.trans hbs
  rw [Option.some.inj this]
  exact hd

example (key : BArr 96) (pok : BArr 48) (r : Bytes) (prev : stakingTy.Val) :
    Unmarshal stakingTy prev (stakingLayout key none pok ++ r) = .ok (key, none, pok, ()) r :=
  (C74_round_trip key none pok [] r prev).2

end Nimiq.Wire
