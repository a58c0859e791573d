import Verif.Genesis.Replay
/-!
# C89: a replay does not check that the blocks form a chain

Of a block's 146 header bytes, a replay reads the 32 of the accounts hash and the 4 of the height.  The version, the hash of
the previous block, the interlink hash, the body hash, the difficulty, the timestamp and the nonce can be anything.
-/
namespace Nimiq.Genesis
open Beserial Wire Accounts Spec

variable {E : Env}

/-- Two serialized blocks with the same accounts hash, height and everything after the header.  `a` holds the version and the
hashes of the previous block, the interlink and the body, `nb` the difficulty, `tn` the timestamp and the nonce. -/
def SameButLinks (buf buf' : Bytes) : Prop :=
  ∃ a a' acc nb nb' height tn tn' rest : Bytes, a.length = 98 ∧ a'.length = 98 ∧ acc.length = 32 ∧ nb.length = 4 ∧
    nb'.length = 4 ∧ height.length = 4 ∧ tn.length = 8 ∧ tn'.length = 8 ∧
    buf = a ++ acc ++ nb ++ height ++ tn ++ rest ∧ buf' = a' ++ acc ++ nb' ++ height ++ tn' ++ rest

/-- A header of 146 bytes decodes field by field, whatever the bytes are. -/
theorem decode_header (prev : headerTy.Val) {b0 b1 b2 b3 b4 b5 b6 b7 b8 : Bytes} (rest : Bytes) (h0 : b0.length = 2)
    (h1 : b1.length = 32) (h2 : b2.length = 32) (h3 : b3.length = 32) (h4 : b4.length = 32) (h5 : b5.length = 4)
    (h6 : b6.length = 4) (h7 : b7.length = 4) (h8 : b8.length = 4) :
    decode noLimit headerTy prev {} (b0 ++ (b1 ++ (b2 ++ (b3 ++ (b4 ++ (b5 ++ (b6 ++ (b7 ++ (b8 ++ rest))))))))) =
      .ok (getNum .u16 b0, BArr.copy 32 b1, BArr.copy 32 b2, BArr.copy 32 b3, BArr.copy 32 b4, getNum .u32 b5,
        getNum .u32 b6, getNum .u32 b7, getNum .u32 b8, ()) rest := by
  have e0 : ∀ r, pop 2 (b0 ++ r) = some (b0, r) := fun r => pop_append h0
  have e1 : ∀ r, pop 32 (b1 ++ r) = some (b1, r) := fun r => pop_append h1
  have e2 : ∀ r, pop 32 (b2 ++ r) = some (b2, r) := fun r => pop_append h2
  have e3 : ∀ r, pop 32 (b3 ++ r) = some (b3, r) := fun r => pop_append h3
  have e4 : ∀ r, pop 32 (b4 ++ r) = some (b4, r) := fun r => pop_append h4
  have e5 : ∀ r, pop 4 (b5 ++ r) = some (b5, r) := fun r => pop_append h5
  have e6 : ∀ r, pop 4 (b6 ++ r) = some (b6, r) := fun r => pop_append h6
  have e7 : ∀ r, pop 4 (b7 ++ r) = some (b7, r) := fun r => pop_append h7
  have e8 : ∀ r, pop 4 (b8 ++ r) = some (b8, r) := fun r => pop_append h8
  simp only [headerTy, decode, decodeFields, fieldTags, NumKind.size, e0, e1, e2, e3, e4, e5, e6, e7, e8, Res.map]

theorem decode_first (t : Ty) (fs : Fields) (prev : (Ty.struct (.cons none t fs)).Val) (d : Bytes) :
    decode noLimit (.struct (.cons none t fs)) prev {} d =
      match decode noLimit t prev.1 {} d with
      | .ok v d => (decodeFields noLimit fs prev.2 d).map fun vs => (v, vs)
      | .err e d => .err e d
      | .panic => .panic := by
  rw [decode, decodeFields]
  rfl

theorem decode_block (prev : blockTy.Val) {b0 b1 b2 b3 b4 b5 b6 b7 b8 : Bytes} (rest : Bytes) (h0 : b0.length = 2)
    (h1 : b1.length = 32) (h2 : b2.length = 32) (h3 : b3.length = 32) (h4 : b4.length = 32) (h5 : b5.length = 4)
    (h6 : b6.length = 4) (h7 : b7.length = 4) (h8 : b8.length = 4) :
    Unmarshal blockTy prev (b0 ++ (b1 ++ (b2 ++ (b3 ++ (b4 ++ (b5 ++ (b6 ++ (b7 ++ (b8 ++ rest))))))))) =
      (decodeFields noLimit (.cons none (.custom interlink) (.cons tagOptional (.ptr bodyTy) .nil)) prev.2 rest).map
        fun vs => ((getNum .u16 b0, BArr.copy 32 b1, BArr.copy 32 b2, BArr.copy 32 b3, BArr.copy 32 b4, getNum .u32 b5,
        getNum .u32 b6, getNum .u32 b7, getNum .u32 b8, ()), vs) := by
  have h := decode_header prev.1 rest h0 h1 h2 h3 h4 h5 h6 h7 h8
  exact (decode_first _ _ _ _).trans (by rw [h]; rfl)

theorem split98 {a : Bytes} (h : a.length = 98) : ∃ b0 b1 b2 b3 : Bytes, b0.length = 2 ∧ b1.length = 32 ∧ b2.length = 32 ∧
    b3.length = 32 ∧ a = b0 ++ (b1 ++ (b2 ++ b3)) :=
  ⟨a.take 2, (a.drop 2).take 32, (a.drop 34).take 32, a.drop 66, by simp; omega, by simp; omega, by simp; omega,
    by simp; omega, by
      have e1 : a.drop 34 = (a.drop 2).drop 32 := by rw [List.drop_drop]
      have e2 : a.drop 66 = (a.drop 34).drop 32 := by rw [List.drop_drop]
      rw [e2, List.take_append_drop, e1, List.take_append_drop, List.take_append_drop]⟩

theorem split8 {a : Bytes} (h : a.length = 8) : ∃ b0 b1 : Bytes, b0.length = 4 ∧ b1.length = 4 ∧ a = b0 ++ b1 :=
  ⟨a.take 4, a.drop 4, by simp; omega, by simp; omega, by rw [List.take_append_drop]⟩

/-- What a replay makes of an entry: the block, or the error. -/
def blockOf (buf : Bytes) : Out (Option Block) :=
  match UnmarshalFull blockTy blockTy.zero buf with
  | .ok v => .ok (Block.ofVal v)
  | .err e => .err e
  | .panic => .panic

theorem blockOf_append {a acc nb height tn : Bytes} (rest : Bytes) (ha : a.length = 98) (h4 : acc.length = 32)
    (h5 : nb.length = 4) (h6 : height.length = 4) (ht : tn.length = 8) :
    blockOf (a ++ acc ++ nb ++ height ++ tn ++ rest) =
      match decodeFields noLimit (.cons none (.custom interlink) (.cons tagOptional (.ptr bodyTy) .nil)) blockTy.zero.2 rest with
      | .ok vs r =>
        if r = [] then
          .ok (match vs.2.1 with
            | none => some ⟨getNum .u32 height, BArr.copy 32 acc, none⟩
            | some b => (Body.ofVal b).map fun b => ⟨getNum .u32 height, BArr.copy 32 acc, some b⟩)
        else .err .notFullyRead
      | .err e _ => .err e
      | .panic => .panic := by
  obtain ⟨b0, b1, b2, b3, h0, h1, h2, h3, rfl⟩ := split98 ha
  obtain ⟨b7, b8, h7, h8, rfl⟩ := split8 ht
  have e := decode_block blockTy.zero rest h0 h1 h2 h3 h4 h5 h6 h7 h8
  simp only [List.append_assoc]
  rw [blockOf, UnmarshalFull, e]
  rcases decodeFields noLimit (.cons none (.custom interlink) (.cons tagOptional (.ptr bodyTy) .nil)) blockTy.zero.2 rest with
    ⟨vs, r⟩ | ⟨e, r⟩ | _
  · simp only [Res.map, List.length_append]
    by_cases hr : r = []
    · subst hr
      rw [if_neg (by simp), if_pos rfl]
      rfl
    · have : 0 < r.length := List.length_pos_iff.mpr hr
      rw [if_pos (by omega), if_neg hr]
  · rfl
  · rfl

/-- Two blocks that differ only in the links are the same to a replay. -/
theorem blockOf_same {buf buf' : Bytes} (h : SameButLinks buf buf') : blockOf buf = blockOf buf' := by
  obtain ⟨a, a', acc, nb, nb', height, tn, tn', rest, h1, h1', h2, h3, h3', h4, h5, h5', rfl, rfl⟩ := h
  rw [blockOf_append rest h1 h2 h3 h4 h5, blockOf_append rest h1' h2 h3' h4 h5']

theorem replayLoop_blockOf (clean : Bool) (buf : Bytes) (rest : List (Option Bytes)) (b t : Nat) (n : Node) :
    replayLoop E clean (some buf :: rest) b t n =
      match blockOf buf with
      | .ok (some block) => (do let k ← replayBlock E block; replayLoop E clean rest (b + 1) (t + k) : M Node (Nat × Nat)) n
      | _ => (.panic, n) := by
  rw [replayLoop, M.bind_eq, blockOf, must, M.lift_eq]
  rcases UnmarshalFull blockTy blockTy.zero buf with v | e | _
  · simp only []
    cases Block.ofVal v <;> rfl
  · rfl
  · rfl

theorem replayLoop_same (clean : Bool) {es es' : List (Option Bytes)} (h : List.Forall₂ (Option.Rel SameButLinks) es es') :
    ∀ (b t : Nat) (n : Node), replayLoop E clean es b t n = replayLoop E clean es' b t n := by
  induction h with
  | nil => intros; rfl
  | cons h _ ih =>
    intro b t n
    cases h with
    | none => rfl
    | some h =>
      rw [replayLoop_blockOf, replayLoop_blockOf, blockOf_same h]
      split
      · rw [M.bind_eq, M.bind_eq]
        rcases replayBlock E _ n with ⟨o | e | _, s⟩
        · exact ih _ _ _
        · rfl
        · rfl
      · rfl

/-- C89 is false of the code: replace in every entry of an archive the version, the hash of the previous block, the
interlink hash, the body hash, the difficulty, the timestamp and the nonce by any other bytes, and the replay does the same:
same result, same counts, same final state. -/
theorem C89_links_violated (E : Env) (config : Option Config) (blockBuf accountsBuf : Option Bytes) (archive archive' : Archive)
    (hc : archive.clean = archive'.clean)
    (h : List.Forall₂ (Option.Rel SameButLinks) archive.entries archive'.entries) (n : Node) :
    gimiq E config blockBuf accountsBuf archive n = gimiq E config blockBuf accountsBuf archive' n := by
  unfold gimiq
  rw [hc]
  have hd : List.Forall₂ (Option.Rel SameButLinks) (archive.entries.drop 1) (archive'.entries.drop 1) := by
    generalize archive.entries = l at h ⊢
    generalize archive'.entries = l' at h ⊢
    cases h with
    | nil => exact .nil
    | cons _ h => exact h
  have e : replayLoop E archive'.clean (archive.entries.drop 1) 0 0 = replayLoop E archive'.clean (archive'.entries.drop 1) 0 0 :=
    funext fun n => replayLoop_same _ hd 0 0 n
  rw [e]

end Nimiq.Genesis
